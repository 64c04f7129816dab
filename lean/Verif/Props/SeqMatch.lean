import Verif.Lemmas.SeqMatch
import Verif.Props.SimilarityExact

/-!
# C244 - C246: the sequence matcher score

The statements speak about sublists (subsequences), infixes (substrings) and counts only.
-/

set_option linter.unusedSectionVars false
set_option linter.unusedSimpArgs false
set_option linter.unusedVariables false

namespace Verif.SeqMatch

variable {α : Type} [DecidableEq α]

theorem total_sublist (s t : List α) : ∃ l : List α, l.Sublist s ∧ l.Sublist t ∧ l.length = total s t := matches_sublist _ _ s t

theorem total_le (s t : List α) : total s t ≤ s.length ∧ total s t ≤ t.length := by
  obtain ⟨l, h1, h2, h3⟩ := total_sublist s t
  exact ⟨by rw [← h3]; exact h1.length_le, by rw [← h3]; exact h2.length_le⟩

theorem total_self (s : List α) : total s s = s.length := by
  have h1 := (total_le s s).1
  have h2 := le_matches (popular s) s.length s s (Nat.le_refl _)
  rw [longest_self] at h2
  exact Nat.le_antisymm h1 h2

theorem seqSim_nonempty {s t : List α} (h : ¬ s.length + t.length = 0) :
    seqSim s t = ((2 * total s t : Nat) : Rat) / ((s.length + t.length : Nat) : Rat) := by
  rw [seqSim, if_neg h]
  congr 1
  push_cast
  rfl

/-- C244: the score is between 0 and 1, it is 1 exactly for equal strings, and it is `2 m / (len(s) + len(t))` for the length `m` of some common subsequence of the two strings (so it never
exceeds the value for the longest one). -/
theorem C244_range (s t : List α) :
    (0 ≤ seqSim s t ∧ seqSim s t ≤ 1) ∧ (seqSim s t = 1 ↔ s = t) ∧
    (s ≠ [] ∨ t ≠ [] → ∃ l : List α, l.Sublist s ∧ l.Sublist t ∧ seqSim s t = ((2 * l.length : Nat) : Rat) / ((s.length + t.length : Nat) : Rat)) := by
  by_cases h : s.length + t.length = 0
  · have hs : s = [] := List.eq_nil_of_length_eq_zero (by omega)
    have ht : t = [] := List.eq_nil_of_length_eq_zero (by omega)
    subst hs; subst ht
    simp [seqSim]
    decide
  · rw [seqSim_nonempty h]
    have hle : 2 * total s t ≤ s.length + t.length := by have := total_le s t; omega
    refine ⟨Sim.ratio_bounds _ _ hle (by omega), ?_, ?_⟩
    · constructor
      · intro he
        have hn := Sim.ratio_eq_one hle (by omega) he
        obtain ⟨l, h1, h2, h3⟩ := total_sublist s t
        have hb := total_le s t
        have e1 := h1.eq_of_length (by omega)
        have e2 := h2.eq_of_length (by omega)
        rw [← e1, ← e2]
      · intro e
        subst e
        have : 2 * total s s = s.length + s.length := by rw [total_self]; omega
        rw [this]
        exact Sim.ratio_one _ (by omega)
    · intro _
      obtain ⟨l, h1, h2, h3⟩ := total_sublist s t
      exact ⟨l, h1, h2, by rw [h3]⟩

example : seqSim "abcd".toList "bcde".toList = 3 / 4 := by decide +kernel

/-! ### The value for short strings -/

/-- `u`, found after `a1` in `a` and after `b1` in `b`, is a longest common substring; among those the one that starts first in `a`, then first in `b`. -/
def FirstLongest (a b a1 b1 u : List α) : Prop :=
  (∃ a2, a = a1 ++ u ++ a2) ∧ (∃ b2, b = b1 ++ u ++ b2) ∧
  ∀ a1' b1' u' a2' b2', a = a1' ++ u' ++ a2' → b = b1' ++ u' ++ b2' →
    u'.length < u.length ∨ (u'.length = u.length ∧ (a1.length < a1'.length ∨ (a1.length = a1'.length ∧ b1.length ≤ b1'.length)))

/-- The number of matching characters in the sense of Ratcliff and Obershelp: take the first longest common substring and go on with what is left and right of it. -/
inductive Matching : List α → List α → Nat → Prop where
  | nothing (a b : List α) : (∀ c, c ∈ a → c ∉ b) → Matching a b 0
  | block (a1 u a2 b1 b2 : List α) (m m' : Nat) : u ≠ [] → FirstLongest (a1 ++ u ++ a2) (b1 ++ u ++ b2) a1 b1 u → Matching a1 b1 m → Matching a2 b2 m' →
      Matching (a1 ++ u ++ a2) (b1 ++ u ++ b2) (m + u.length + m')

theorem longest_first {pop : α → Bool} (hp : ∀ c, pop c = false) (a b : List α) (hk : (longest pop a b).k ≠ 0) :
    ∃ a1 u a2 b1 b2, a = a1 ++ u ++ a2 ∧ b = b1 ++ u ++ b2 ∧ a1.length = (longest pop a b).i ∧ b1.length = (longest pop a b).j ∧
      u.length = (longest pop a b).k ∧ FirstLongest a b a1 b1 u := by
  obtain ⟨hb, hle⟩ := longest_block pop a b
  have hblk := hb
  -- the core is already maximal
  obtain ⟨a1, u, a2, b1, b2, h1, h2, e1, e2, e3⟩ := hb
  have hmax : u.length ≤ (core pop a b).k := by
    by_cases hn : u.length = 0
    · omega
    have hc := (core_top pop a b).1 (a1.length + u.length - 1) (b1.length + u.length - 1) (by rw [h2]; simp; omega) (Or.inl (by rw [h1]; simp; omega))
    refine Nat.le_trans ?_ hc
    simp only [cell]
    have f1 : a1.length + u.length - 1 + 1 = (a1 ++ u).length := by simp; omega
    have f2 : b1.length + u.length - 1 + 1 = (b1 ++ u).length := by simp; omega
    rw [h1, h2, f1, f2, List.take_left, List.take_left, List.reverse_append, List.reverse_append]
    have := le_run pop u.reverse a1.reverse b1.reverse (fun c _ => hp c)
    simpa using this
  have hkk : (longest pop a b).k = (core pop a b).k := by omega
  have hij : (longest pop a b).i = (core pop a b).i ∧ (longest pop a b).j = (core pop a b).j := by
    have q := hkk
    simp only [longest, extendRight, extendLeft] at q ⊢
    omega
  refine ⟨a1, u, a2, b1, b2, h1, h2, e1, e2, e3, ⟨a2, h1⟩, ⟨b2, h2⟩, ?_⟩
  intro a1' b1' u' a2' b2' g1 g2
  rcases (core_top pop a b).2 with h | ⟨i, j, hbf, hj, hc, hpos, q1, q2, hf⟩
  · rw [hkk, h] at hk; exact absurd rfl hk
  · by_cases hn : u'.length = 0
    · left; omega
    have f1 : a1'.length + u'.length - 1 + 1 = (a1' ++ u').length := by simp; omega
    have f2 : b1'.length + u'.length - 1 + 1 = (b1' ++ u').length := by simp; omega
    have hge : u'.length ≤ cell pop a b (a1'.length + u'.length - 1) (b1'.length + u'.length - 1) := by
      simp only [cell]
      rw [g1, g2, f1, f2, List.take_left, List.take_left, List.reverse_append, List.reverse_append]
      have := le_run pop u'.reverse a1'.reverse b1'.reverse (fun c _ => hp c)
      simpa using this
    have hlt : u'.length ≤ u.length := by
      have hc' := (core_top pop a b).1 (a1'.length + u'.length - 1) (b1'.length + u'.length - 1) (by rw [g2]; simp; omega) (Or.inl (by rw [g1]; simp; omega))
      omega
    by_cases heq : u'.length = u.length
    · right
      refine ⟨heq, ?_⟩
      have hnb : ¬ Before (a1'.length + u'.length - 1) (b1'.length + u'.length - 1) i j := by
        intro hbb
        have := hf _ _ (by rw [g2]; simp; omega) hbb
        omega
      have r1 : cell pop a b i j ≤ i + 1 ∧ cell pop a b i j ≤ j + 1 := by
        obtain ⟨p, l', m', w1, w2, w3⟩ := run_split pop (a.take (i + 1)).reverse (b.take (j + 1)).reverse
        have v1 := congrArg List.length w1
        have v2 := congrArg List.length w2
        simp at v1 v2
        simp only [cell]
        omega
      simp only [Before] at hnb
      omega
    · left; omega

theorem matching_matches {pop : α → Bool} (hp : ∀ c, pop c = false) (n : Nat) (a b : List α) (hn : a.length ≤ n) : Matching a b (matches' pop n a b) := by
  induction n generalizing a b with
  | zero =>
    have : a = [] := List.eq_nil_of_length_eq_zero (by omega)
    subst this
    exact Matching.nothing [] b (by simp)
  | succ n ih =>
    simp only [matches']
    split
    · next h0 =>
      refine Matching.nothing a b ?_
      intro c hs ht
      obtain ⟨a1, a2, ha⟩ := List.append_of_mem hs
      obtain ⟨b1, b2, hb⟩ := List.append_of_mem ht
      have := longest_max pop a b [c] (by simp [hp]) ⟨a1, a2, by simp [ha]⟩ ⟨b1, b2, by simp [hb]⟩
      simp at this; omega
    · next hk =>
      obtain ⟨a1, u, a2, b1, b2, h1, h2, e1, e2, e3, hfl⟩ := longest_first hp a b hk
      have t1 : a.take (longest pop a b).i = a1 := by rw [← e1]; conv => lhs; rw [h1]; simp
      have t2 : b.take (longest pop a b).j = b1 := by rw [← e2]; conv => lhs; rw [h2]; simp
      have t3 : a.drop ((longest pop a b).i + (longest pop a b).k) = a2 := by
        rw [← e1, ← e3]; conv => lhs; rw [h1, List.drop_append]; simp
      have t4 : b.drop ((longest pop a b).j + (longest pop a b).k) = b2 := by
        rw [← e2, ← e3]; conv => lhs; rw [h2, List.drop_append]; simp
      have hl := congrArg List.length h1
      simp at hl
      have hu : u ≠ [] := by intro c; rw [c] at e3; simp at e3; omega
      have hul : 0 < u.length := List.length_pos_iff.2 hu
      rw [t1, t2, t3, t4, ← e3]
      have m1 := ih a1 b1 (by omega)
      have m2 := ih a2 b2 (by omega)
      rw [h1, h2] at hfl
      have := Matching.block a1 u a2 b1 b2 _ _ hu hfl m1 m2
      rw [← h1, ← h2] at this
      exact this

theorem firstLongest_unique {a b a1 b1 u a1' b1' u' : List α} (h : FirstLongest a b a1 b1 u) (h' : FirstLongest a b a1' b1' u') :
    a1 = a1' ∧ b1 = b1' ∧ u = u' := by
  obtain ⟨⟨a2, ha⟩, ⟨b2, hb⟩, hm⟩ := h
  obtain ⟨⟨a2', ha'⟩, ⟨b2', hb'⟩, hm'⟩ := h'
  have q1 := hm a1' b1' u' a2' b2' ha' hb'
  have q2 := hm' a1 b1 u a2 b2 ha hb
  have l1 : a1.length = a1'.length := by omega
  have l2 : b1.length = b1'.length := by omega
  have l3 : u.length = u'.length := by omega
  have e := ha.symm.trans ha'
  rw [List.append_assoc, List.append_assoc] at e
  have e1 := List.append_inj e l1
  have e2 := List.append_inj e1.2 l3
  have e' := hb.symm.trans hb'
  rw [List.append_assoc, List.append_assoc] at e'
  exact ⟨e1.1, (List.append_inj e' l2).1, e2.1⟩

theorem Matching.unique {a b : List α} {m m' : Nat} (h : Matching a b m) : Matching a b m' → m = m' := by
  induction h generalizing m' with
  | nothing a b hno =>
    intro h'
    cases h' with
    | nothing _ _ _ => rfl
    | block a1 u a2 b1 b2 p q hu _ _ _ =>
      obtain ⟨c, hc⟩ := List.exists_mem_of_ne_nil u hu
      exact absurd (show c ∈ b1 ++ u ++ b2 by simp [hc]) (hno c (by simp [hc]))
  | block a1 u a2 b1 b2 p q hu hfl _ _ ih1 ih2 =>
    intro h'
    generalize hA : a1 ++ u ++ a2 = A at h' hfl
    generalize hB : b1 ++ u ++ b2 = B at h' hfl
    cases h' with
    | nothing _ _ hno =>
      obtain ⟨c, hc⟩ := List.exists_mem_of_ne_nil u hu
      rw [← hA, ← hB] at hno
      exact absurd (show c ∈ b1 ++ u ++ b2 by simp [hc]) (hno c (by simp [hc]))
    | block a1' u' a2' b1' b2' p' q' hu' hfl' g1 g2 =>
      obtain ⟨x1, x2, x3⟩ := firstLongest_unique hfl hfl'
      subst x1; subst x2; subst x3
      have y1 : a2 = a2' := List.append_cancel_left hA
      have y2 : b2 = b2' := List.append_cancel_left hB
      subst y1; subst y2
      rw [ih1 g1, ih2 g2]

/-- C244: for a second string of less than 200 characters the score is the one of Ratcliff and Obershelp. -/
theorem C244_value (s t : List α) (hl : t.length < 200) (m : Nat) (hm : Matching s t m) (hn : s ≠ [] ∨ t ≠ []) :
    seqSim s t = ((2 * m : Nat) : Rat) / ((s.length + t.length : Nat) : Rat) := by
  have h : ¬ s.length + t.length = 0 := by
    intro c
    rcases hn with hn | hn
    · exact hn (List.eq_nil_of_length_eq_zero (by omega))
    · exact hn (List.eq_nil_of_length_eq_zero (by omega))
  have hp : ∀ c, popular t c = false := fun c => by
    simp only [popular, decide_eq_false_iff_not]; omega
  have := (matching_matches hp s.length s t (Nat.le_refl _)).unique hm
  rw [seqSim_nonempty h, ← this]
  rfl

/-- Every pair of strings has such a number. -/
theorem C244_value_exists (s t : List α) : ∃ m, Matching s t m := ⟨_, matching_matches (pop := fun _ => false) (fun _ => rfl) s.length s t (Nat.le_refl _)⟩

/-! ### C245: what two strings have in common counts -/

/-- `c` occurs so often in `t` that `difflib` leaves it out. -/
def Frequent (t : List α) (c : α) : Prop := 200 ≤ t.length ∧ t.length / 100 + 1 < t.count c

theorem popular_false_iff (t : List α) (c : α) : popular t c = false ↔ ¬ Frequent t c := by simp [popular, Frequent]

theorem common_le_total (s t u : List α) (hs : u <:+: s) (ht : u <:+: t) (hf : ∀ c ∈ u, ¬ Frequent t c) : u.length ≤ total s t :=
  Nat.le_trans (longest_max (popular t) s t u (fun c hc => (popular_false_iff t c).2 (hf c hc)) hs ht) (le_matches _ _ _ _ (Nat.le_refl _))

/-- C245, the part that holds: a common part without characters that are frequent in a long second string counts in full. -/
theorem C245_common_partial (s t u : List α) (hs : u <:+: s) (ht : u <:+: t) (hf : ∀ c ∈ u, ¬ Frequent t c) (hn : s ≠ [] ∨ t ≠ []) :
    ((2 * u.length : Nat) : Rat) / ((s.length + t.length : Nat) : Rat) ≤ seqSim s t := by
  have h : ¬ s.length + t.length = 0 := by
    intro c
    rcases hn with hn | hn
    · exact hn (List.eq_nil_of_length_eq_zero (by omega))
    · exact hn (List.eq_nil_of_length_eq_zero (by omega))
  rw [seqSim_nonempty h]
  have hle := common_le_total s t u hs ht hf
  have hp : (0 : Rat) < ((s.length + t.length : Nat) : Rat) := by exact_mod_cast (show 0 < s.length + t.length by omega)
  have hc : ((2 * u.length : Nat) : Rat) ≤ ((2 * total s t : Nat) : Rat) := by exact_mod_cast (show 2 * u.length ≤ 2 * total s t by omega)
  rw [← Rat.not_lt, Rat.div_lt_iff hp]
  intro hlt
  rw [Rat.div_mul_cancel (by intro c; rw [c] at hp; exact absurd hp (by decide))] at hlt
  grind

/-- In a second string of less than 200 characters nothing is left out. -/
theorem C245_short_partial (s t u : List α) (hs : u <:+: s) (ht : u <:+: t) (hl : t.length < 200) (hn : s ≠ [] ∨ t ≠ []) :
    ((2 * u.length : Nat) : Rat) / ((s.length + t.length : Nat) : Rat) ≤ seqSim s t :=
  C245_common_partial s t u hs ht (fun c _ hf => by have := hf.1; omega) hn

theorem run_pos {pop : α → Bool} {l m : List α} (h : 0 < run pop l m) : ∃ c, c ∈ l ∧ c ∈ m ∧ pop c = false := by
  cases l with
  | nil => rw [run_nil_left] at h; omega
  | cons x xs =>
    cases m with
    | nil => simp [run] at h
    | cons y ys =>
      by_cases hc : x = y ∧ pop x = false
      · exact ⟨x, by simp, by simp [hc.1], hc.2⟩
      · rw [run, if_neg hc] at h; omega

theorem agree_zero (s t : List α) : agree s t = 0 ↔ (s = [] ∨ s.head? ≠ t.head?) := by
  cases s with
  | nil => cases t <;> simp [agree]
  | cons x xs =>
    cases t with
    | nil => simp [agree]
    | cons y ys =>
      by_cases h : x = y
      · simp [agree, h]
      · simp [agree, h]

theorem longest_zero (pop : α → Bool) (s t : List α) :
    (longest pop s t).k = 0 ↔ (∀ c, c ∈ s → c ∈ t → pop c = true) ∧ (s = [] ∨ s.head? ≠ t.head?) := by
  have hcore : (core pop s t).k = 0 → longest pop s t = ⟨0, 0, agree s t⟩ := by
    intro h0
    have he : core pop s t = ⟨0, 0, 0⟩ := by
      rcases (core_top pop s t).2 with h | ⟨_, _, _, _, _, hp, _⟩
      · exact h
      · omega
    simp [longest, he, extendLeft, extendRight, agree]
  constructor
  · intro h
    have hc := (longest_block pop s t).2
    have h0 : (core pop s t).k = 0 := by omega
    refine ⟨?_, ?_⟩
    · intro c hs ht
      cases hp : pop c with
      | true => rfl
      | false =>
        obtain ⟨a1, a2, ha⟩ := List.append_of_mem hs
        obtain ⟨b1, b2, hb⟩ := List.append_of_mem ht
        have := longest_max pop s t [c] (by simp [hp]) ⟨a1, a2, by simp [ha]⟩ ⟨b1, b2, by simp [hb]⟩
        simp at this; omega
    · rw [hcore h0] at h
      exact (agree_zero s t).1 h
  · intro ⟨h1, h2⟩
    have h0 : (core pop s t).k = 0 := by
      rcases (core_top pop s t).2 with h | ⟨i, j, _, _, hc, hp, _⟩
      · rw [h]
      · rw [← hc] at hp
        obtain ⟨c, q1, q2, q3⟩ := run_pos hp
        have m1 : c ∈ s := List.mem_of_mem_take (by simpa using q1)
        have m2 : c ∈ t := List.mem_of_mem_take (by simpa using q2)
        rw [h1 c m1 m2] at q3; cases q3
    rw [hcore h0]
    exact (agree_zero s t).2 h2

theorem total_zero (s t : List α) : total s t = 0 ↔ (∀ c, c ∈ s → c ∈ t → Frequent t c) ∧ (s = [] ∨ s.head? ≠ t.head?) := by
  have hz : total s t = 0 ↔ (longest (popular t) s t).k = 0 := by
    constructor
    · intro h
      have := le_matches (popular t) s.length s t (Nat.le_refl _)
      have e : matches' (popular t) s.length s t = 0 := h
      omega
    · intro h
      unfold total
      cases hn : s.length with
      | zero => rfl
      | succ n => simp [matches', h]
  rw [hz, longest_zero]
  have hp : ∀ c, popular t c = true ↔ Frequent t c := fun c => by simp [popular, Frequent]
  simp only [hp]

/-- C245, exactly when two strings score 0: the characters they share are all frequent in a second string of at least 200 characters, and they do not start with the same character. -/
theorem C245_zero_exact_partial (s t : List α) (hn : s ≠ [] ∨ t ≠ []) :
    seqSim s t = 0 ↔ (∀ c, c ∈ s → c ∈ t → Frequent t c) ∧ (s = [] ∨ s.head? ≠ t.head?) := by
  have h : ¬ s.length + t.length = 0 := by
    intro c
    rcases hn with hn | hn
    · exact hn (List.eq_nil_of_length_eq_zero (by omega))
    · exact hn (List.eq_nil_of_length_eq_zero (by omega))
  rw [← total_zero, seqSim_nonempty h]
  constructor
  · intro he
    have := Sim.ratio_eq_zero (by omega) he
    omega
  · intro he
    rw [he]
    simp [Rat.div_def]

example : seqSim "abcd".toList "xbcdy".toList ≠ 0 := by decide +kernel

/-- C245 fails: of every length from 200 on there are two strings that differ in the first character only and score 0. -/
theorem C245_long_violation (n : Nat) (hn : 200 ≤ n) : ∃ s t : List Char, s.tail = t.tail ∧ s.length = n ∧ t.length = n ∧ seqSim s t = 0 := by
  refine ⟨'x' :: List.replicate (n - 1) 'a', 'y' :: List.replicate (n - 1) 'a', rfl, by simp; omega, by simp; omega, ?_⟩
  rw [C245_zero_exact_partial _ _ (Or.inl (by simp))]
  refine ⟨?_, Or.inr (by simp)⟩
  intro c hs ht
  simp only [List.mem_cons, List.mem_replicate] at hs ht
  have hc : c = 'a' := by
    rcases hs with rfl | hs
    · rcases ht with ht | ht
      · exact absurd ht (by decide)
      · exact absurd ht.2 (by decide)
    · exact hs.2
  subst hc
  refine ⟨by simp; omega, ?_⟩
  rw [List.count_cons_of_ne (by decide), List.count_replicate_self]
  simp
  omega

/-! ### C246: the order of the arguments -/

/-- C246 fails: the score depends on the order of the arguments, for short strings too. -/
theorem C246_order_violation : seqSim "tide".toList "diet".toList ≠ seqSim "diet".toList "tide".toList := by decide +kernel

/-- C246, the part that holds: in both orders the score lies between the same bounds, given by a longest common substring (without characters frequent in a long string) and by the
common subsequences. -/
theorem C246_bounds_partial (s t u : List α) (hs : u <:+: s) (ht : u <:+: t) (hf : ∀ c ∈ u, ¬ Frequent t c ∧ ¬ Frequent s c) (n : Nat)
    (hmax : ∀ l : List α, l.Sublist s → l.Sublist t → l.length ≤ n) (hn : s ≠ [] ∨ t ≠ []) :
    (∃ m, u.length ≤ m ∧ m ≤ n ∧ seqSim s t = ((2 * m : Nat) : Rat) / ((s.length + t.length : Nat) : Rat)) ∧
    (∃ m, u.length ≤ m ∧ m ≤ n ∧ seqSim t s = ((2 * m : Nat) : Rat) / ((s.length + t.length : Nat) : Rat)) := by
  have h : ¬ s.length + t.length = 0 := by
    intro c
    rcases hn with hn | hn
    · exact hn (List.eq_nil_of_length_eq_zero (by omega))
    · exact hn (List.eq_nil_of_length_eq_zero (by omega))
  refine ⟨⟨total s t, common_le_total s t u hs ht (fun c hc => (hf c hc).1), ?_, seqSim_nonempty h⟩,
    ⟨total t s, common_le_total t s u ht hs (fun c hc => (hf c hc).2), ?_, ?_⟩⟩
  · obtain ⟨l, h1, h2, h3⟩ := total_sublist s t
    rw [← h3]; exact hmax l h1 h2
  · obtain ⟨l, h1, h2, h3⟩ := total_sublist t s
    rw [← h3]; exact hmax l h2 h1
  · rw [seqSim_nonempty (by omega), Nat.add_comm t.length]

/-- The order does not matter when a longest common subsequence is a substring of both. -/
theorem C246_substring_partial (s t u : List α) (hs : u <:+: s) (ht : u <:+: t) (hf : ∀ c ∈ u, ¬ Frequent t c ∧ ¬ Frequent s c)
    (hmax : ∀ l : List α, l.Sublist s → l.Sublist t → l.length ≤ u.length) : seqSim s t = seqSim t s := by
  by_cases hn : s ≠ [] ∨ t ≠ []
  · obtain ⟨⟨m, h1, h2, h3⟩, ⟨m', h1', h2', h3'⟩⟩ := C246_bounds_partial s t u hs ht hf u.length hmax hn
    have : m = m' := by omega
    rw [h3, h3', this]
  · have hs' : s = [] := Classical.byContradiction (fun c => hn (Or.inl c))
    have ht' : t = [] := Classical.byContradiction (fun c => hn (Or.inr c))
    rw [hs', ht']

example : seqSim "abcx".toList "yabc".toList = seqSim "yabc".toList "abcx".toList := by decide +kernel

end Verif.SeqMatch
