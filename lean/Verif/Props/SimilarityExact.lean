import Verif.Props.Similarity

/-!
# C228, C229: symmetry, extreme values and exact values of the similarity scores

Scores are rational numbers here (the code uses floats), the cosine similarity is given by its square.
-/

set_option linter.unusedSectionVars false
set_option linter.unusedSimpArgs false
set_option linter.unusedVariables false

namespace Verif.Sim

variable {α : Type} [DecidableEq α]

/-! ### The matches of the Jaro similarity -/

/-- Positions `i` of `s` and `j` of `t` may be matched: equal characters, at a distance of at most half the length of the longer string minus
one. -/
def Compat (s t : List α) (i j : Nat) : Prop :=
  (∃ c, s[i]? = some c ∧ t[j]? = some c) ∧ i ≤ j + (max s.length t.length / 2 - 1) ∧ j ≤ i + (max s.length t.length / 2 - 1)

/-- A matching `M` (position of `s` ↦ position of `t`) in which every possible pair is excluded only in favour of an earlier partner of one of the
two positions. -/
structure Stable (s t : List α) (M : Nat → Option Nat) : Prop where
  compat : ∀ i j, M i = some j → Compat s t i j
  inj : ∀ i i' j, M i = some j → M i' = some j → i = i'
  stable : ∀ i j, Compat s t i j → (∃ j', j' ≤ j ∧ M i = some j') ∨ (∃ i', i' ≤ i ∧ M i' = some j)

/-- There is only one such matching. -/
theorem stable_unique {s t : List α} {M M' : Nat → Option Nat} (h : Stable s t M) (h' : Stable s t M') : M = M' := by
  have key : ∀ n i, i < n → M i = M' i := by
    intro n
    induction n with
    | zero => intro i hi; omega
    | succ n ih =>
      intro i hi
      have ih' : ∀ k, k < i → M k = M' k := fun k hk => ih k (by omega)
      have one : ∀ (A B : Nat → Option Nat), Stable s t A → Stable s t B → (∀ k, k < i → A k = B k) →
          ∀ j, A i = some j → ∃ j', j' ≤ j ∧ B i = some j' := by
        intro A B hA hB hAB j hj
        rcases hB.stable i j (hA.compat i j hj) with h1 | ⟨i', h1, h2⟩
        · exact h1
        · rcases Nat.lt_or_ge i' i with h3 | h3
          · have := hAB i' h3
            rw [h2] at this
            have := hA.inj i' i j this hj
            omega
          · have : i' = i := by omega
            subst this
            exact ⟨j, Nat.le_refl _, h2⟩
      cases hM : M i with
      | none =>
        cases hM' : M' i with
        | none => rfl
        | some j =>
          obtain ⟨j', _, h2⟩ := one M' M h' h (fun k hk => (ih' k hk).symm) j hM'
          rw [hM] at h2; cases h2
      | some j =>
        obtain ⟨j', h1, h2⟩ := one M M' h h' ih' j hM
        obtain ⟨j'', h3, h4⟩ := one M' M h' h (fun k hk => (ih' k hk).symm) j' h2
        rw [hM] at h4; cases h4
        have : j = j' := by omega
        rw [h2, this]
  funext i
  exact key (i + 1) i (Nat.lt_succ_self i)

theorem compat_comm {s t : List α} {i j : Nat} (h : Compat s t i j) : Compat t s j i := by
  obtain ⟨⟨c, h1, h2⟩, h3, h4⟩ := h
  exact ⟨⟨c, h2, h1⟩, by rw [Nat.max_comm]; exact h4, by rw [Nat.max_comm]; exact h3⟩

/-- The matching seen from the other string. -/
def inv (n : Nat) (M : Nat → Option Nat) (j : Nat) : Option Nat := (List.range n).find? (fun i => decide (M i = some j))

theorem inv_iff {s t : List α} {M : Nat → Option Nat} (h : Stable s t M) (i j : Nat) : inv s.length M j = some i ↔ M i = some j := by
  constructor
  · intro hi
    have := List.find?_some hi
    simpa using this
  · intro hi
    have hlt : i < s.length := by
      obtain ⟨⟨c, h1, _⟩, _⟩ := h.compat i j hi
      exact (List.getElem?_eq_some_iff.1 h1).1
    cases hf : inv s.length M j with
    | none =>
      simp only [inv, List.find?_eq_none] at hf
      have := hf i (List.mem_range.2 hlt)
      simp [hi] at this
    | some i' =>
      have := List.find?_some hf
      rw [h.inj i i' j hi (by simpa using this)]

theorem stable_flip {s t : List α} {M : Nat → Option Nat} (h : Stable s t M) : Stable t s (inv s.length M) := by
  refine ⟨?_, ?_, ?_⟩
  · intro j i hj
    exact compat_comm (h.compat i j ((inv_iff h i j).1 hj))
  · intro j j' i h1 h2
    rw [inv_iff h] at h1 h2
    rw [h1] at h2; exact Option.some.inj h2
  · intro j i hc
    rcases h.stable i j (compat_comm hc) with ⟨j', h1, h2⟩ | ⟨i', h1, h2⟩
    · exact Or.inr ⟨j', h1, (inv_iff h i j').2 h2⟩
    · exact Or.inl ⟨i', h1, (inv_iff h i' j).2 h2⟩

/-! ### The loop computes it -/

/-- State of the loop after `i` characters. -/
def stAt (s t : List α) (i : Nat) : List Bool × List Bool := (s.take i).foldl (matchStep (matchDist s t) t) ([], List.replicate t.length false)

/-- Partner chosen for position `i`. -/
def chosen (s t : List α) (i : Nat) : Option Nat :=
  match s[i]? with
  | none => none
  | some c => findMatch (matchDist s t) t (stAt s t i).2 i c

theorem findMatch_some {md : Nat} {t : List α} {tm : List Bool} {i : Nat} {c : α} {j : Nat} (h : findMatch md t tm i c = some j) :
    (i ≤ j + md ∧ j ≤ i + md ∧ j < t.length) ∧ free t tm c j = true ∧
      ∀ j', j' < j → i ≤ j' + md → free t tm c j' = false := by
  unfold findMatch at h
  obtain ⟨h1, k, hk, h2, h3⟩ := List.find?_eq_some_iff_getElem.1 h
  have hm := List.mem_of_find?_eq_some h
  rw [List.mem_range'_1] at hm
  refine ⟨⟨by omega, by omega, by omega⟩, h1, ?_⟩
  intro j' hj hw
  rw [List.getElem_range'] at h2
  rw [List.length_range'] at hk
  have h4 := h3 (j' - (i - md)) (by omega)
  rw [List.getElem_range'] at h4
  have : i - md + 1 * (j' - (i - md)) = j' := by omega
  rw [this] at h4
  simpa using h4

theorem findMatch_none {md : Nat} {t : List α} {tm : List Bool} {i : Nat} {c : α} (h : findMatch md t tm i c = none) :
    ∀ j, i ≤ j + md → j ≤ i + md → j < t.length → free t tm c j = false := by
  unfold findMatch at h
  intro j h1 h2 h3
  rw [List.find?_eq_none] at h
  have := h j (by rw [List.mem_range'_1]; omega)
  simpa using this

theorem stAt_succ {s t : List α} {i : Nat} {c : α} (h : s[i]? = some c) :
    stAt s t (i + 1) = matchStep (matchDist s t) t (stAt s t i) c := by
  unfold stAt
  obtain ⟨hi, hc⟩ := List.getElem?_eq_some_iff.1 h
  rw [List.take_succ_eq_append_getElem hi, List.foldl_append, hc]
  rfl

theorem stAt_inv (s t : List α) (i : Nat) (hi : i ≤ s.length) :
    (stAt s t i).1 = (List.range i).map (fun k => (chosen s t k).isSome) ∧ (stAt s t i).2.length = t.length ∧
    ∀ j, j < t.length → ((stAt s t i).2[j]? = some true ↔ ∃ k, k < i ∧ chosen s t k = some j) := by
  induction i with
  | zero =>
    refine ⟨rfl, by simp [stAt], ?_⟩
    intro j hj
    simp [stAt, hj]
  | succ i ih =>
    obtain ⟨h1, h2, h3⟩ := ih (by omega)
    have hc : s[i]? = some s[i] := List.getElem?_eq_getElem (by omega)
    have hlen : (stAt s t i).1.length = i := by rw [h1]; simp
    have hch : chosen s t i = findMatch (matchDist s t) t (stAt s t i).2 i s[i] := by simp only [chosen, hc]
    rw [stAt_succ hc]
    unfold matchStep
    rw [hlen, ← hch]
    cases hm : chosen s t i with
    | none =>
      refine ⟨?_, h2, ?_⟩
      · simp [List.range_succ, h1, hm]
      · intro j hj
        show (stAt s t i).2[j]? = some true ↔ _
        rw [h3 j hj]
        constructor
        · rintro ⟨k, hk, h⟩; exact ⟨k, by omega, h⟩
        · rintro ⟨k, hk, h⟩
          refine ⟨k, ?_, h⟩
          rcases Nat.lt_or_ge k i with h' | h'
          · exact h'
          · have : k = i := by omega
            subst this; rw [hm] at h; cases h
    | some j0 =>
      have hj0 := (findMatch_some (hch ▸ hm)).1.2.2
      refine ⟨?_, by simp [h2], ?_⟩
      · simp [List.range_succ, h1, hm]
      · intro j hj
        show ((stAt s t i).2.set j0 true)[j]? = some true ↔ _
        rw [List.getElem?_set]
        by_cases hjj : j0 = j
        · subst hjj
          simp [h2, hj]
          exact ⟨i, by omega, hm⟩
        · rw [if_neg hjj, h3 j hj]
          constructor
          · rintro ⟨k, hk, h⟩; exact ⟨k, by omega, h⟩
          · rintro ⟨k, hk, h⟩
            refine ⟨k, ?_, h⟩
            rcases Nat.lt_or_ge k i with h' | h'
            · exact h'
            · have : k = i := by omega
              subst this; rw [hm] at h; cases h; exact absurd rfl hjj

theorem chosen_lt {s t : List α} {i j : Nat} (h : chosen s t i = some j) : i < s.length := by
  rcases Nat.lt_or_ge i s.length with h' | h'
  · exact h'
  · simp [chosen, List.getElem?_eq_none h'] at h

theorem chosen_stable (s t : List α) : Stable s t (chosen s t) := by
  have md : matchDist s t = max s.length t.length / 2 - 1 := rfl
  have fr : ∀ i, i ≤ s.length → ∀ c j, free t (stAt s t i).2 c j = true ↔ t[j]? = some c ∧ ∀ k, k < i → chosen s t k ≠ some j := by
    intro i hi c j
    obtain ⟨h1, h2, h3⟩ := stAt_inv s t i hi
    simp only [free, decide_eq_true_eq]
    constructor
    · rintro ⟨a, b⟩
      refine ⟨b, fun k hk hc => ?_⟩
      have hj := (List.getElem?_eq_some_iff.1 b).1
      have := (h3 j hj).2 ⟨k, hk, hc⟩
      rw [a] at this; cases this
    · rintro ⟨b, hk⟩
      have hj := (List.getElem?_eq_some_iff.1 b).1
      refine ⟨?_, b⟩
      have hl : j < (stAt s t i).2.length := by rw [h2]; exact hj
      rw [List.getElem?_eq_getElem hl]
      congr 1
      cases hv : (stAt s t i).2[j] with
      | false => rfl
      | true =>
        obtain ⟨k, q1, q2⟩ := (h3 j hj).1 (by rw [List.getElem?_eq_getElem hl, hv])
        exact absurd q2 (hk k q1)
  have cs : ∀ i (hi : i < s.length), chosen s t i = findMatch (matchDist s t) t (stAt s t i).2 i s[i] := by
    intro i hi
    simp only [chosen, List.getElem?_eq_getElem hi]
  refine ⟨?_, ?_, ?_⟩
  · intro i j h
    have hi := chosen_lt h
    rw [cs i hi] at h
    obtain ⟨⟨a, b, c⟩, d, _⟩ := findMatch_some h
    rw [fr i (by omega)] at d
    exact ⟨⟨s[i], List.getElem?_eq_getElem hi, d.1⟩, a, b⟩
  · have lt : ∀ i i' j, i < i' → chosen s t i = some j → chosen s t i' ≠ some j := by
      intro i i' j hlt h h'
      have hi := chosen_lt h'
      rw [cs i' hi] at h'
      have d := (findMatch_some h').2.1
      rw [fr i' (by omega)] at d
      exact d.2 i hlt h
    intro i i' j h h'
    rcases Nat.lt_trichotomy i i' with q | q | q
    · exact absurd h' (lt i i' j q h)
    · exact q
    · exact absurd h (lt i' i j q h')
  · intro i j hc
    obtain ⟨⟨c, h1, h2⟩, h3, h4⟩ := hc
    obtain ⟨hi, hci⟩ := List.getElem?_eq_some_iff.1 h1
    obtain ⟨hj, _⟩ := List.getElem?_eq_some_iff.1 h2
    by_cases hfree : free t (stAt s t i).2 c j = true
    · left
      cases hm : chosen s t i with
      | none =>
        rw [cs i hi, hci] at hm
        have := findMatch_none hm j (by rw [md]; exact h3) (by rw [md]; exact h4) hj
        rw [hfree] at this; cases this
      | some j' =>
        refine ⟨j', ?_, rfl⟩
        rw [cs i hi, hci] at hm
        rcases Nat.lt_or_ge j j' with q | q
        · have := (findMatch_some hm).2.2 j q (by rw [md]; exact h3)
          rw [hfree] at this; cases this
        · exact q
    · right
      rw [fr i (by omega)] at hfree
      have : ∃ k, k < i ∧ chosen s t k = some j := by
        apply Classical.byContradiction
        intro hn
        exact hfree ⟨h2, fun k hk h => hn ⟨k, hk, h⟩⟩
      obtain ⟨k, h5, h6⟩ := this
      exact ⟨k, by omega, h6⟩

theorem flags_eq {s t : List α} {M : Nat → Option Nat} (h : Stable s t M) :
    matchFlags s t = ((List.range s.length).map (fun i => (M i).isSome), (List.range t.length).map (fun j => (inv s.length M j).isSome)) := by
  have hM : M = chosen s t := stable_unique h (chosen_stable s t)
  subst hM
  have hst : matchFlags s t = stAt s t s.length := by unfold matchFlags stAt; rw [List.take_length]
  obtain ⟨h1, h2, h3⟩ := stAt_inv s t s.length (Nat.le_refl _)
  rw [hst]
  refine Prod.ext h1 ?_
  apply List.ext_getElem
  · simp [h2]
  · intro j hj hj'
    rw [h2] at hj
    simp only [List.getElem_map, List.getElem_range]
    have e1 := h3 j hj
    rw [List.getElem?_eq_getElem (by rw [h2]; exact hj)] at e1
    simp only [Option.some.injEq] at e1
    rw [Bool.eq_iff_iff, e1, Option.isSome_iff_exists]
    constructor
    · rintro ⟨k, _, hk⟩; exact ⟨k, (inv_iff h k j).2 hk⟩
    · rintro ⟨k, hk⟩
      have := (inv_iff h k j).1 hk
      exact ⟨k, chosen_lt this, this⟩

theorem flags_swap (s t : List α) : matchFlags t s = (matchFlags s t).swap := by
  have h := chosen_stable s t
  have h' := stable_flip h
  rw [flags_eq h, flags_eq h']
  simp only [Prod.swap]
  refine Prod.ext rfl ?_
  apply List.map_congr_left
  intro i _
  rw [Bool.eq_iff_iff, Option.isSome_iff_exists, Option.isSome_iff_exists]
  constructor
  · rintro ⟨j, hj⟩; exact ⟨j, (inv_iff h i j).1 ((inv_iff h' j i).1 hj)⟩
  · rintro ⟨j, hj⟩; exact ⟨j, (inv_iff h' j i).2 ((inv_iff h i j).2 hj)⟩

theorem count_flags (s t : List α) : (matchFlags s t).1.count true = (matchFlags s t).2.count true :=
  (matchFlags_inv (matchDist s t) t s ([], List.replicate t.length false) (by simp [List.count_replicate]) (by simp)).1

theorem zip_swap {β : Type} (a : List α) (b : List β) : b.zip a = (a.zip b).map Prod.swap := by
  induction a generalizing b with
  | nil => simp
  | cons x a ih => cases b <;> simp [ih]

theorem countP_zip_comm (a b : List α) (p : α → α → Bool) (hp : ∀ x y, p x y = p y x) :
    (b.zip a).countP (fun q => p q.1 q.2) = (a.zip b).countP (fun q => p q.1 q.2) := by
  rw [zip_swap, List.countP_map]
  apply List.countP_congr
  intro q _
  simp [Prod.swap, hp]

theorem nMatches_comm (s t : List α) : nMatches s t = nMatches t s := by
  simp only [nMatches, flags_swap s t, Prod.swap, count_flags s t]

theorem nTrans_comm (s t : List α) : nTrans s t = nTrans t s := by
  simp only [nTrans, flags_swap s t, Prod.swap]
  exact (countP_zip_comm _ _ (fun x y => decide (x ≠ y)) (by intro x y; simp only [decide_eq_decide]; exact ne_comm)).symm

theorem jaro_comm (s t : List α) : jaro s t = jaro t s := by
  unfold jaro
  rw [nMatches_comm s t, nTrans_comm s t]
  by_cases h1 : s = [] ∧ t = []
  · rw [if_pos h1, if_pos h1.symm]
  · have h1' : ¬ (t = [] ∧ s = []) := fun h => h1 h.symm
    rw [if_neg h1, if_neg h1']
    by_cases h2 : s = [] ∨ t = []
    · rw [if_pos h2, if_pos h2.symm]
    · have h2' : ¬ (t = [] ∨ s = []) := fun h => h2 h.symm
      rw [if_neg h2, if_neg h2']
      split
      · rfl
      · grind

theorem prefixLen_comm (s t : List α) : prefixLen s t = prefixLen t s := by
  unfold prefixLen
  rw [zip_swap t s, ← List.map_take, List.takeWhile_map, List.length_map]
  congr 2
  funext p
  simp [Prod.swap, eq_comm]

theorem inter_comm (s t : List α) : s.eraseDups.countP (fun c => decide (c ∈ t)) = t.eraseDups.countP (fun c => decide (c ∈ s)) := by
  have key : ∀ s t : List α, s.eraseDups.countP (fun c => decide (c ∈ t)) ≤ t.eraseDups.countP (fun c => decide (c ∈ s)) := by
    intro s t
    rw [List.countP_eq_length_filter, List.countP_eq_length_filter]
    apply length_le_of_nodup_subset
    · exact (nodup_eraseDups s).sublist List.filter_sublist
    · intro x hx
      rw [List.mem_filter, List.mem_eraseDups] at hx ⊢
      simp only [decide_eq_true_eq] at hx ⊢
      exact hx.symm
  exact Nat.le_antisymm (key s t) (key t s)

/-- **C228** (symmetry).  Exchanging the two strings changes none of the scores. -/
theorem C228_symmetric (s t : List α) (scaling : Rat) :
    levSim s t = levSim t s ∧ hammingSim s t = hammingSim t s ∧ cosineSq s t = cosineSq t s ∧ jaro s t = jaro t s ∧
    jaroWinkler scaling s t = jaroWinkler scaling t s := by
  refine ⟨?_, ?_, ?_, jaro_comm s t, ?_⟩
  · unfold levSim
    rw [(C67_metric s t t).2.1, Nat.max_comm]
    simp only [And.comm (a := s = []) (b := t = []), Or.comm (a := s = []) (b := t = [])]
  · unfold hammingSim
    by_cases h : s = [] ∨ t = [] ∨ s.length ≠ t.length
    · rw [if_pos h, if_pos (by rcases h with h | h | h; exact Or.inr (Or.inl h); exact Or.inl h; exact Or.inr (Or.inr h.symm))]
    · rw [if_neg h, if_neg (by rintro (h' | h' | h'); exact h (Or.inr (Or.inl h')); exact h (Or.inl h'); exact h (Or.inr (Or.inr h'.symm)))]
      have hl : s.length = t.length := Classical.byContradiction (fun hn => h (Or.inr (Or.inr hn)))
      rw [hl, countP_zip_comm s t (fun x y => decide (x = y)) (by intro x y; simp [eq_comm])]
  · unfold cosineSq
    rw [inter_comm s t, Rat.mul_comm (s.eraseDups.length : Rat)]
    simp only [Or.comm (a := s = []) (b := t = [])]
  · unfold jaroWinkler
    rw [jaro_comm s t, prefixLen_comm s t]

/-! ### When a score is 1 -/

theorem ratio_eq_one {m n : Nat} (h : m ≤ n) (hn : 0 < n) (he : (m : Rat) / (n : Rat) = 1) : m = n := by
  apply Classical.byContradiction
  intro hne
  have hlt : (m : Rat) < (n : Rat) := by exact_mod_cast (show m < n by omega)
  have hn' : (0 : Rat) < (n : Rat) := by exact_mod_cast hn
  have : (m : Rat) / (n : Rat) < 1 := by rw [Rat.div_lt_iff hn']; grind
  grind

theorem ratio_eq_zero {m n : Nat} (hn : 0 < n) (he : (m : Rat) / (n : Rat) = 0) : m = 0 := by
  apply Classical.byContradiction
  intro hne
  have hm : (0 : Rat) < (m : Rat) := by exact_mod_cast (show 0 < m by omega)
  have hn' : (0 : Rat) < (n : Rat) := by exact_mod_cast hn
  have : (0 : Rat) < (m : Rat) / (n : Rat) := by rw [Rat.lt_div_iff hn']; grind
  grind

theorem zip_all_eq {a b : List α} (hl : a.length = b.length) (h : (a.zip b).countP (fun p => decide (p.1 ≠ p.2)) = 0) : a = b := by
  induction a generalizing b with
  | nil => cases b with | nil => rfl | cons y b => simp at hl
  | cons x a ih =>
    cases b with
    | nil => simp at hl
    | cons y b =>
      rw [List.zip_cons_cons, List.countP_cons] at h
      have h1 : (a.zip b).countP (fun p => decide (p.1 ≠ p.2)) = 0 := by omega
      have hxy : x = y := by
        apply Classical.byContradiction
        intro hne
        simp [hne] at h
      rw [hxy, ih (by simpa using hl) h1]

theorem zip_one_not_perm {a b : List α} (hl : a.length = b.length) (h : (a.zip b).countP (fun p => decide (p.1 ≠ p.2)) = 1) :
    ¬ a.Perm b := by
  induction a generalizing b with
  | nil => simp at h
  | cons x a ih =>
    cases b with
    | nil => simp at hl
    | cons y b =>
      intro hp
      rw [List.zip_cons_cons, List.countP_cons] at h
      by_cases hxy : x = y
      · subst hxy
        exact ih (by simpa using hl) (by simpa using h) hp.cons_inv
      · have h1 : (a.zip b).countP (fun p => decide (p.1 ≠ p.2)) = 0 := by simp [hxy] at h ⊢; omega
        have hab := zip_all_eq (by simpa using hl) h1
        subst hab
        have := hp.count_eq x
        simp [List.count_cons, hxy, Ne.symm hxy] at this

theorem filter_all {β : Type} (l : List α) (f : List Bool) (hl : f.length = l.length) (h : f.count true = l.length) : matched l f = l := by
  have : f = List.replicate l.length true := by
    rw [List.eq_replicate_iff]
    refine ⟨hl, ?_⟩
    rw [← hl] at h
    intro b hb
    exact ((List.count_eq_length.1 h) b hb).symm
  rw [this]; exact zip_self_filter l

/-- If every position of two strings of the same length is matched, they are permutations of each other. -/
theorem perm_of_all {s t : List α} (hl : s.length = t.length) (h : nMatches s t = s.length) : s.Perm t := by
  have hst := chosen_stable s t
  have hall : ∀ i, i < s.length → ∃ j, chosen s t i = some j ∧ t[j]? = s[i]? := by
    have h1 : (matchFlags s t).1 = (List.range s.length).map (fun i => (chosen s t i).isSome) := by rw [flags_eq hst]
    unfold nMatches at h
    rw [h1] at h
    have hlen : ((List.range s.length).map (fun i => (chosen s t i).isSome)).length = s.length := by simp
    have h2 := List.count_eq_length.1 (h.trans hlen.symm)
    intro i hi
    have := h2 (chosen s t i).isSome (List.mem_map.2 ⟨i, List.mem_range.2 hi, rfl⟩)
    obtain ⟨j, hj⟩ := Option.isSome_iff_exists.1 this.symm
    obtain ⟨⟨c, a, b⟩, _⟩ := hst.compat i j hj
    exact ⟨j, hj, by rw [a, b]⟩
  let f : Nat → Nat := fun i => (chosen s t i).getD 0
  have hf : ∀ i, i < s.length → chosen s t i = some (f i) ∧ t[f i]? = s[i]? := by
    intro i hi
    obtain ⟨j, h1, h2⟩ := hall i hi
    simp only [f, h1, Option.getD_some]
    exact ⟨trivial, h2⟩
  have hflt : ∀ i, i < s.length → f i < t.length := by
    intro i hi
    have := (hf i hi).2
    rw [List.getElem?_eq_getElem hi] at this
    exact (List.getElem?_eq_some_iff.1 this).1
  have hnd : ((List.range s.length).map f).Nodup := by
    rw [List.nodup_iff_pairwise_ne, List.pairwise_map]
    refine List.Pairwise.imp_of_mem ?_ (List.nodup_iff_pairwise_ne.1 List.nodup_range)
    intro i k hi hk hne he
    have h1 := (hf i (List.mem_range.1 hi)).1
    have h2 := (hf k (List.mem_range.1 hk)).1
    rw [← he] at h2
    exact hne (hst.inj i k (f i) h1 h2)
  have hperm : ((List.range s.length).map f).Perm (List.range t.length) := by
    apply perm_of_nodup_subset hnd
    · intro x hx
      obtain ⟨i, hi, rfl⟩ := List.mem_map.1 hx
      exact List.mem_range.2 (hflt i (List.mem_range.1 hi))
    · simp [hl]
  have h1 : s = ((List.range s.length).map f).filterMap (fun j => t[j]?) := by
    have e : ∀ l : List α, l = (List.range l.length).filterMap (fun i => l[i]?) := by
      intro l
      induction l with
      | nil => rfl
      | cons x l ih =>
        rw [List.length_cons, List.range_succ_eq_map, List.filterMap_cons, List.filterMap_map]
        simp only [List.getElem?_cons_zero]
        congr 1
    conv => lhs; rw [e s]
    rw [List.filterMap_map]
    apply filterMap_congr'
    intro i hi
    exact (hf i (List.mem_range.1 hi)).2.symm
  have h2 : t = (List.range t.length).filterMap (fun j => t[j]?) := by
    have e : ∀ l : List α, l = (List.range l.length).filterMap (fun i => l[i]?) := by
      intro l
      induction l with
      | nil => rfl
      | cons x l ih =>
        rw [List.length_cons, List.range_succ_eq_map, List.filterMap_cons, List.filterMap_map]
        simp only [List.getElem?_cons_zero]
        congr 1
    exact e t
  have h3 := hperm.filterMap (fun j => t[j]?)
  rw [← h1, ← h2] at h3
  exact h3

theorem jaro_one {s t : List α} (h : jaro s t = 1) : s = t := by
  unfold jaro at h
  split at h
  · next h1 => rw [h1.1, h1.2]
  · split at h
    · exact absurd h (by decide)
    · split at h
      · exact absurd h (by decide)
      · next h1 h2 h3 =>
        have hs : s ≠ [] := fun e => h2 (Or.inl e)
        have ht : t ≠ [] := fun e => h2 (Or.inr e)
        obtain ⟨l1, l2⟩ := nMatches_le s t
        have l3 := nTrans_le s t
        have b1 := ratio_bounds _ _ l1 (List.length_pos_iff.2 hs)
        have b2 := ratio_bounds _ _ l2 (List.length_pos_iff.2 ht)
        have b3 := ratio_bounds (nMatches s t - nTrans s t / 2) (nMatches s t) (by omega) (by omega)
        have hsub : ((nMatches s t - nTrans s t / 2 : Nat) : Rat) = (nMatches s t : Rat) - (nTrans s t / 2 : Nat) := by
          have hle : nTrans s t / 2 ≤ nMatches s t := by omega
          have : (((nMatches s t - nTrans s t / 2) + nTrans s t / 2 : Nat) : Rat) = (nMatches s t : Nat) := by
            rw [Nat.sub_add_cancel hle]
          rw [Rat.natCast_add] at this
          grind
        rw [← hsub] at h
        have e1 : (nMatches s t : Rat) / (s.length : Nat) = 1 := by grind
        have e2 : (nMatches s t : Rat) / (t.length : Nat) = 1 := by grind
        have e3 : ((nMatches s t - nTrans s t / 2 : Nat) : Rat) / (nMatches s t : Nat) = 1 := by grind
        have m1 := ratio_eq_one l1 (List.length_pos_iff.2 hs) e1
        have m2 := ratio_eq_one l2 (List.length_pos_iff.2 ht) e2
        have m3 := ratio_eq_one (by omega) (by omega) e3
        have hl : s.length = t.length := by omega
        have hp := perm_of_all hl m1
        have inv := matchFlags_inv (matchDist s t) t s ([], List.replicate t.length false) (by simp [List.count_replicate]) (by simp)
        have hfl : (matchFlags s t).1.length = s.length ∧ (matchFlags s t).2.length = t.length := by
          unfold matchFlags; exact ⟨by rw [inv.2.1]; simp, inv.2.2⟩
        have q1 : matched s (matchFlags s t).1 = s := filter_all (β := α) s _ hfl.1 m1
        have q2 : matched t (matchFlags s t).2 = t := filter_all (β := α) t _ hfl.2 (by rw [← count_flags]; exact m2)
        have hn : nTrans s t = (s.zip t).countP (fun p => decide (p.1 ≠ p.2)) := by unfold nTrans; rw [q1, q2]
        have hn1 : nTrans s t ≤ 1 := by omega
        rcases Nat.lt_or_ge (nTrans s t) 1 with h' | h'
        · exact zip_all_eq hl (by omega)
        · exact absurd hp (zip_one_not_perm hl (by omega))

/-- **C228** (identity).  Levenshtein and Jaro similarity are 1 exactly for identical strings, Hamming similarity exactly for identical strings that
are not empty, Jaro-Winkler with a scaling below 1/4 exactly for identical strings; cosine similarity is 1 exactly for non-empty strings
with the same set of characters. -/
theorem C228_identity (s t : List α) :
    (levSim s t = 1 ↔ s = t) ∧ (jaro s t = 1 ↔ s = t) ∧ (hammingSim s t = 1 ↔ s = t ∧ s ≠ []) ∧
    (∀ scaling : Rat, 0 ≤ scaling → scaling < 1 / 4 → (jaroWinkler scaling s t = some 1 ↔ s = t)) ∧
    (cosineSq s t = 1 ↔ s ≠ [] ∧ t ≠ [] ∧ ∀ c, c ∈ s ↔ c ∈ t) := by
  refine ⟨⟨fun h => ?_, fun h => h ▸ (C68_levenshtein s s).2⟩, ⟨jaro_one, fun h => h ▸ jaro_self s⟩,
    ⟨fun h => ?_, fun h => h.1 ▸ (C68_hamming s s).2 h.2⟩, fun scaling h0 h1 => ⟨fun h => ?_, fun h => ?_⟩, ⟨fun h => ?_, fun h => ?_⟩⟩
  · unfold levSim at h
    split at h
    · next h1 => rw [h1.1, h1.2]
    · split at h
      · exact absurd h (by decide)
      · next h1 h2 =>
        have hs : s ≠ [] := fun h => h2 (Or.inl h)
        have hpos : 0 < max s.length t.length := by
          have := List.length_pos_iff.2 hs; omega
        have h3 : (levenshtein s t : Rat) / (max s.length t.length : Nat) = 0 := by grind
        exact ((C67_metric s t t).1).1 (ratio_eq_zero hpos h3)
  · unfold hammingSim at h
    split at h
    · exact absurd h (by decide)
    · next h1 =>
      have hs : s ≠ [] := fun h => h1 (Or.inl h)
      have hl : s.length = t.length := Classical.byContradiction (fun hn => h1 (Or.inr (Or.inr hn)))
      have hz : (s.zip t).length = s.length := by rw [List.length_zip]; omega
      have hc := ratio_eq_one (by rw [← hz]; exact List.countP_le_length) (List.length_pos_iff.2 hs) h
      refine ⟨zip_all_eq hl ?_, hs⟩
      rw [← hz, List.countP_eq_length] at hc
      rw [List.countP_eq_zero]
      intro p hp
      simpa using hc p hp
  · unfold jaroWinkler at h
    rw [if_pos ⟨h0, Rat.le_of_lt h1⟩] at h
    have h := Option.some.inj h
    apply jaro_one
    have hb := jaro_bounds s t
    have hp := prefixLen_le s t
    apply Classical.byContradiction
    intro hne
    have hd : 0 < 1 - jaro s t := by grind
    have hp4 : (prefixLen s t : Rat) ≤ 4 := by exact_mod_cast hp
    have h2 : (prefixLen s t : Rat) * scaling ≤ 4 * scaling := Rat.mul_le_mul_of_nonneg_right hp4 h0
    have h3 : (prefixLen s t : Rat) * scaling < 1 := by grind
    have h4 : (prefixLen s t : Rat) * scaling * (1 - jaro s t) < 1 * (1 - jaro s t) := Rat.mul_lt_mul_of_pos_right h3 hd
    grind
  · subst h
    obtain ⟨v, _, _, _, h4⟩ := (C68_jaro_winkler scaling s s).1 ⟨h0, Rat.le_of_lt h1⟩
    exact h4
  · unfold cosineSq at h
    split at h
    · exact absurd h (by decide)
    · next h1 =>
      have hs : s ≠ [] := fun e => h1 (Or.inl e)
      have ht : t ≠ [] := fun e => h1 (Or.inr e)
      have pos : ∀ l : List α, l ≠ [] → 0 < l.eraseDups.length := by
        intro l hl
        cases l with
        | nil => exact absurd rfl hl
        | cons x l => exact List.length_pos_of_mem (a := x) (by rw [List.mem_eraseDups]; simp)
      have i1 := countP_mem_le s t
      have i2 : s.eraseDups.countP (fun c => decide (c ∈ t)) ≤ s.eraseDups.length := List.countP_le_length
      rw [← Rat.natCast_mul, ← Rat.natCast_mul] at h
      have he := ratio_eq_one (Nat.mul_le_mul i2 i1) (Nat.mul_pos (pos s hs) (pos t ht)) h
      have i3 : s.eraseDups.countP (fun c => decide (c ∈ t)) = s.eraseDups.length := by
        apply Classical.byContradiction
        intro hne
        have hlt : s.eraseDups.countP (fun c => decide (c ∈ t)) < s.eraseDups.length := by omega
        have := Nat.mul_lt_mul_of_lt_of_le hlt i1 (pos t ht)
        omega
      have i4 : t.eraseDups.countP (fun c => decide (c ∈ s)) = t.eraseDups.length := by
        rw [← inter_comm s t]
        apply Classical.byContradiction
        intro hne
        have hlt : s.eraseDups.countP (fun c => decide (c ∈ t)) < t.eraseDups.length := by omega
        have := Nat.mul_lt_mul_of_le_of_lt i2 hlt (pos s hs)
        omega
      rw [List.countP_eq_length] at i3 i4
      refine ⟨hs, ht, fun c => ⟨fun hc => ?_, fun hc => ?_⟩⟩
      · simpa using i3 c (by rw [List.mem_eraseDups]; exact hc)
      · simpa using i4 c (by rw [List.mem_eraseDups]; exact hc)
  · obtain ⟨hs, ht, hc⟩ := h
    have e1 : s.eraseDups.countP (fun c => decide (c ∈ t)) = s.eraseDups.length := by
      rw [List.countP_eq_length]
      intro c h; rw [List.mem_eraseDups] at h; simpa using (hc c).1 h
    have e2 : t.eraseDups.countP (fun c => decide (c ∈ s)) = t.eraseDups.length := by
      rw [List.countP_eq_length]
      intro c h; rw [List.mem_eraseDups] at h; simpa using (hc c).2 h
    have e3 := inter_comm s t
    have pos : 0 < s.eraseDups.length := by
      cases s with
      | nil => exact absurd rfl hs
      | cons x l => exact List.length_pos_of_mem (a := x) (by rw [List.mem_eraseDups]; simp)
    unfold cosineSq
    rw [if_neg (by simp [hs, ht]), e1, ← e2, ← e3, e1, ← Rat.natCast_mul]
    exact ratio_one _ (Nat.mul_pos pos pos)

/-- **C228** limit: with scaling 1/4 the Jaro-Winkler score of different strings is 1 as soon as they share the first four characters. -/
theorem C228_scaling_limit : jaroWinkler (1 / 4) "abcdx".toList "abcdyz".toList = some 1 := by decide +kernel

example : jaroWinkler (1 / 10) "abcdx".toList "abcdyz".toList ≠ some 1 := by decide +kernel

/-! ### The values -/

/-- Characters of `l` at the positions for which `p` holds. -/
def charsAt (l : List α) (p : Nat → Bool) : List α := (List.range l.length).filterMap (fun i => if p i then l[i]? else none)

theorem matched_charsAt (l : List α) (p : Nat → Bool) : matched l ((List.range l.length).map p) = charsAt l p := by
  unfold matched charsAt
  induction l generalizing p with
  | nil => rfl
  | cons x l ih =>
    rw [List.length_cons, List.range_succ_eq_map, List.map_cons, List.zip_cons_cons, List.filterMap_cons, List.map_map, List.filterMap_map]
    have := ih (p ∘ Nat.succ)
    simp only [Function.comp_def, List.getElem?_cons_succ] at this ⊢
    cases hp : p 0 with
    | true => simp [hp, this]
    | false => simp [hp, this]

/-- **C229** (Jaro).  The score of two non-empty strings is computed from the one stable matching of their characters (equal characters within the
window, earlier positions first): 0 if nothing is matched, otherwise the mean of the matched fractions of both strings and of the
fraction of matched characters that are in order, where half of the positions at which the matched characters differ (rounded down) count as
out of order.  Two empty strings score 1, an empty and a non-empty one 0. -/
theorem C229_jaro (s t : List α) :
    ∃ M : Nat → Option Nat, Stable s t M ∧ (∀ M', Stable s t M' → M' = M) ∧
      (s ≠ [] → t ≠ [] →
        ∀ a b : List α, a = charsAt s (fun i => (M i).isSome) →
          b = charsAt t (fun j => decide (∃ i, i < s.length ∧ M i = some j)) →
          a.length = b.length ∧
          (a = [] → jaro s t = 0) ∧
          (a ≠ [] → jaro s t = ((a.length : Rat) / s.length + (a.length : Rat) / t.length +
            ((a.length : Rat) - ((a.zip b).countP (fun p => decide (p.1 ≠ p.2)) / 2 : Nat)) / a.length) / 3)) ∧
      (s = [] → t = [] → jaro s t = 1) ∧ (s = [] → t ≠ [] → jaro s t = 0) ∧ (s ≠ [] → t = [] → jaro s t = 0) := by
  have hst := chosen_stable s t
  refine ⟨chosen s t, hst, fun M' h => stable_unique h hst, ?_, ?_, ?_, ?_⟩
  · intro hs ht a b ha hb
    have hb' : b = charsAt t (fun j => (inv s.length (chosen s t) j).isSome) := by
      rw [hb]
      congr 1
      funext j
      rw [Bool.eq_iff_iff, decide_eq_true_eq, Option.isSome_iff_exists]
      constructor
      · rintro ⟨i, _, hi⟩; exact ⟨i, (inv_iff hst i j).2 hi⟩
      · rintro ⟨i, hi⟩
        have := (inv_iff hst i j).1 hi
        exact ⟨i, chosen_lt this, this⟩
    have e1 : matched s (matchFlags s t).1 = a := by rw [flags_eq hst, matched_charsAt, ha]
    have e2 : matched t (matchFlags s t).2 = b := by rw [flags_eq hst, matched_charsAt, hb']
    have l1 : a.length = nMatches s t := by
      rw [← e1]; exact matched_length s _ (by rw [flags_eq hst]; simp)
    have l2 : b.length = nMatches s t := by
      rw [← e2, matched_length t _ (by rw [flags_eq hst]; simp)]; exact (count_flags s t).symm
    have hn : nTrans s t = (a.zip b).countP (fun p => decide (p.1 ≠ p.2)) := by unfold nTrans; rw [e1, e2]
    refine ⟨by rw [l1, l2], ?_, ?_⟩
    · intro h
      unfold jaro
      rw [if_neg (fun h => hs h.1), if_neg (by simp [hs, ht]), if_pos (by rw [← l1, h]; rfl)]
    · intro h
      have : nMatches s t ≠ 0 := by
        rw [← l1]; exact fun e => h (List.length_eq_zero_iff.1 e)
      unfold jaro
      rw [if_neg (fun h => hs h.1), if_neg (by simp [hs, ht]), if_neg this, ← l1, hn]
  · intro h1 h2; simp [jaro, h1, h2]
  · intro h1 h2; simp [jaro, h1, h2]
  · intro h1 h2; simp [jaro, h1, h2]

/-- **C229** (Levenshtein, Hamming, cosine). -/
theorem C229_values (s t : List α) :
    (s ≠ [] → t ≠ [] → levSim s t = 1 - (levenshtein s t : Rat) / (max s.length t.length : Nat)) ∧
    (s ≠ [] → t = [] → levSim s t = 0) ∧ (s = [] → t ≠ [] → levSim s t = 0) ∧
    (s.length ≠ t.length → hammingSim s t = 0) ∧ (s = [] → hammingSim s t = 0) ∧
    (s.length = t.length → s ≠ [] →
      hammingSim s t = ((List.range s.length).countP (fun i => decide (s[i]? = t[i]?)) : Nat) / (s.length : Nat)) ∧
    (s = [] → cosineSq s t = 0) ∧ (t = [] → cosineSq s t = 0) ∧
    (∀ A B I : List α, A.Nodup → B.Nodup → I.Nodup → (∀ c, c ∈ A ↔ c ∈ s) → (∀ c, c ∈ B ↔ c ∈ t) → (∀ c, c ∈ I ↔ c ∈ s ∧ c ∈ t) →
      s ≠ [] → t ≠ [] → cosineSq s t = ((I.length : Rat) * I.length) / ((A.length : Rat) * B.length)) := by
  refine ⟨?_, ?_, ?_, ?_, ?_, ?_, ?_, ?_, ?_⟩
  · intro h1 h2; simp [levSim, h1, h2]
  · intro h1 h2; simp [levSim, h1, h2]
  · intro h1 h2; simp [levSim, h1, h2]
  · intro h; unfold hammingSim; rw [if_pos (Or.inr (Or.inr h))]
  · intro h; unfold hammingSim; rw [if_pos (Or.inl h)]
  · intro hl hs
    unfold hammingSim
    have ht : t ≠ [] := by
      intro h; subst h; simp at hl; exact hs hl
    rw [if_neg (by simp [hs, ht, hl])]
    have key : ∀ s t : List α, s.length = t.length →
        (s.zip t).countP (fun p => decide (p.1 = p.2)) = (List.range s.length).countP (fun i => decide (s[i]? = t[i]?)) := by
      intro s
      induction s with
      | nil => intro t _; rfl
      | cons x s ih =>
        intro t hl
        cases t with
        | nil => simp at hl
        | cons y t =>
          rw [List.zip_cons_cons, List.countP_cons, List.length_cons, List.range_succ_eq_map, List.countP_cons, List.countP_map,
            ih t (by simpa using hl)]
          simp [Function.comp_def]
    rw [key s t hl]
  · intro h; simp [cosineSq, h]
  · intro h; simp [cosineSq, h]
  · intro A B I hA hB hI mA mB mI hs ht
    have perm : ∀ {X Y : List α}, X.Nodup → Y.Nodup → (∀ c, c ∈ X ↔ c ∈ Y) → X.length = Y.length := by
      intro X Y h1 h2 h3
      exact Nat.le_antisymm (length_le_of_nodup_subset h1 (fun c hc => (h3 c).1 hc)) (length_le_of_nodup_subset h2 (fun c hc => (h3 c).2 hc))
    have a1 : s.eraseDups.length = A.length := perm (nodup_eraseDups s) hA (fun c => by rw [List.mem_eraseDups, mA])
    have a2 : t.eraseDups.length = B.length := perm (nodup_eraseDups t) hB (fun c => by rw [List.mem_eraseDups, mB])
    have a3 : s.eraseDups.countP (fun c => decide (c ∈ t)) = I.length := by
      rw [List.countP_eq_length_filter]
      exact perm ((nodup_eraseDups s).sublist List.filter_sublist) hI (fun c => by
        rw [List.mem_filter, List.mem_eraseDups, mI]; simp)
    unfold cosineSq
    rw [if_neg (by simp [hs, ht]), a1, a2, a3]

example : jaro "martha".toList "marhta".toList = 17 / 18 := by decide +kernel
example : hammingSim "karolin".toList "kathrin".toList = 4 / 7 := by decide +kernel

end Verif.Sim
