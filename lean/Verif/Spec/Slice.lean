import Verif.Py.Basic

/-!
# What a Python slice picks
-/

set_option linter.unusedSimpArgs false
set_option linter.unusedVariables false

namespace Verif.Py

/-! ## Specification

Slices as in the Python language reference ("sequence operations", notes on `s[i:j:k]`), as a condition on a single
position. -/

/-- An explicit slice bound `v` counted from the end if negative, and then clipped to `lo … hi`. -/
def Clipped (n : Nat) (lo hi v b : Int) : Prop :=
  (0 ≤ v → b = min v hi) ∧ (v < 0 → b = max (v + n) lo)

/-- Where a slice starts, for a step `k`. -/
def StartsAt (s : Slice) (n : Nat) (k a : Int) : Prop :=
  (s.start = none → a = if k < 0 then (n : Int) - 1 else 0) ∧
  ∀ v, s.start = some v → Clipped n (if k < 0 then -1 else 0) (if k < 0 then (n : Int) - 1 else n) v a

/-- Where a slice stops (exclusively), for a step `k`. -/
def StopsAt (s : Slice) (n : Nat) (k b : Int) : Prop :=
  (s.stop = none → b = if k < 0 then -1 else (n : Int)) ∧
  ∀ v, s.stop = some v → Clipped n (if k < 0 then -1 else 0) (if k < 0 then (n : Int) - 1 else n) v b

/-- Position `p` is picked by going from `a` in steps of `k` and stopping before `b`. -/
def Between (a b k : Int) (p : Nat) : Prop :=
  (∃ j : Nat, (p : Int) = a + j * k) ∧ (0 < k → (p : Int) < b) ∧ (k < 0 → b < (p : Int))

/-- `ps` lists, in the order of the slice, exactly the positions a slice with step `k ≠ 0` picks in a sequence of
length `n`. -/
def Picks (s : Slice) (n : Nat) (ps : List Nat) : Prop :=
  ∃ a b k : Int, k = s.step.getD 1 ∧ StartsAt s n k a ∧ StopsAt s n k b ∧
    (∀ p, p ∈ ps ↔ Between a b k p) ∧
    (0 < k → ps.Pairwise (· < ·)) ∧ (k < 0 → ps.Pairwise (fun p q => q < p))

/-! ## The slices of the model pick these positions -/

theorem startsAt_adjust (s : Slice) (n : Nat) (k : Int) : StartsAt s n k (s.adjust n k).1 := by
  unfold StartsAt Clipped Slice.adjust
  cases hs : s.start with
  | none => simp [hs]
  | some v =>
    simp only [hs, reduceCtorEq, false_implies, true_and, Option.some.injEq, forall_eq']
    by_cases hk : k < 0
    · simp only [hk, if_true]
      constructor <;> intro hv <;> (repeat' split) <;> omega
    · simp only [hk, if_false]
      constructor <;> intro hv <;> (repeat' split) <;> omega

theorem stopsAt_adjust (s : Slice) (n : Nat) (k : Int) : StopsAt s n k (s.adjust n k).2 := by
  unfold StopsAt Clipped Slice.adjust
  cases hs : s.stop with
  | none => simp [hs]
  | some v =>
    simp only [hs, reduceCtorEq, false_implies, true_and, Option.some.injEq, forall_eq']
    by_cases hk : k < 0
    · simp only [hk, if_true]
      constructor <;> intro hv <;> (repeat' split) <;> omega
    · simp only [hk, if_false]
      constructor <;> intro hv <;> (repeat' split) <;> omega

theorem StartsAt.bounds {s : Slice} {n : Nat} {k a : Int} (h : StartsAt s n k a) (hk : k ≠ 0) :
    (0 < k → 0 ≤ a) ∧ (k < 0 → a < n) := by
  unfold StartsAt Clipped at h
  cases hs : s.start with
  | none =>
    have := h.1 hs
    split at this <;> omega
  | some v =>
    have := h.2 v hs
    split at this <;> omega

theorem StopsAt.bounds {s : Slice} {n : Nat} {k b : Int} (h : StopsAt s n k b) (hk : k ≠ 0) :
    (0 < k → b ≤ n) ∧ (k < 0 → -1 ≤ b) := by
  unfold StopsAt Clipped at h
  cases hs : s.stop with
  | none =>
    have := h.1 hs
    split at this <;> omega
  | some v =>
    have := h.2 v hs
    split at this <;> omega

theorem lt_count_iff (a b k : Int) (hk : k ≠ 0) (j : Nat) :
    j < Slice.count a b k ↔ (0 < k → a + (j : Int) * k < b) ∧ (k < 0 → b < a + (j : Int) * k) := by
  have hj0 : (0 : Int) ≤ j := by omega
  unfold Slice.count
  by_cases hneg : k < 0
  · rw [if_pos hneg]
    have hpos : 0 < -k := by omega
    have e : (j : Int) ≤ (a - b - 1) / (-k) ↔ (j : Int) * (-k) ≤ a - b - 1 := Int.le_ediv_iff_mul_le hpos
    have hnn : 0 ≤ (j : Int) * (-k) := Int.mul_nonneg hj0 (by omega)
    rw [Int.mul_neg] at e hnn
    split
    · have := Int.ediv_nonneg (a := a - b - 1) (b := -k) (by omega) (by omega)
      omega
    · omega
  · rw [if_neg hneg]
    have hpos : 0 < k := by omega
    have e : (j : Int) ≤ (b - a - 1) / k ↔ (j : Int) * k ≤ b - a - 1 := Int.le_ediv_iff_mul_le hpos
    have hnn : 0 ≤ (j : Int) * k := Int.mul_nonneg hj0 (by omega)
    split
    · have := Int.ediv_nonneg (a := b - a - 1) (b := k) (by omega) (by omega)
      omega
    · omega

theorem positions_none (s : Slice) (n : Nat) : s.positions n = none ↔ s.step = some 0 := by
  unfold Slice.positions
  cases hs : s.step with
  | none => simp
  | some k => by_cases hk : k = 0 <;> simp [hk]

theorem positions_some {s : Slice} {n : Nat} {ps : List Nat} (h : s.positions n = some ps) :
    s.step.getD 1 ≠ 0 ∧ ps = (List.range (Slice.count (s.adjust n (s.step.getD 1)).1 (s.adjust n (s.step.getD 1)).2
      (s.step.getD 1))).map (fun k : Nat => ((s.adjust n (s.step.getD 1)).1 + (k : Int) * (s.step.getD 1)).toNat) := by
  unfold Slice.positions at h
  by_cases hk : s.step.getD 1 = 0
  · simp [hk] at h
  · simp only [hk, if_false, Option.some.injEq] at h
    exact ⟨hk, h.symm⟩

/-- The positions computed by the model are exactly the picked ones, in the order of the slice. -/
theorem positions_picks {s : Slice} {n : Nat} {ps : List Nat} (h : s.positions n = some ps) : Picks s n ps := by
  obtain ⟨hk, rfl⟩ := positions_some h
  generalize hkk : s.step.getD 1 = k at *
  have ha := startsAt_adjust s n k
  have hb := stopsAt_adjust s n k
  generalize (s.adjust n k).1 = a at *
  generalize (s.adjust n k).2 = b at *
  obtain ⟨a1, a2⟩ := ha.bounds hk
  obtain ⟨b1, b2⟩ := hb.bounds hk
  have nonneg : ∀ j : Nat, j < Slice.count a b k → 0 ≤ a + (j : Int) * k := by
    intro j hj
    have := (lt_count_iff a b k hk j).1 hj
    rcases Int.lt_or_gt_of_ne hk with hn | hp
    · have := this.2 hn; have := b2 hn; omega
    · have := a1 hp
      have : 0 ≤ (j : Int) * k := Int.mul_nonneg (by omega) (by omega)
      omega
  refine ⟨a, b, k, hkk.symm, ha, hb, ?_, ?_, ?_⟩
  · intro p
    rw [List.mem_map]
    constructor
    · rintro ⟨j, hj, rfl⟩
      rw [List.mem_range] at hj
      have h0 := nonneg j hj
      have h1 := (lt_count_iff a b k hk j).1 hj
      exact ⟨⟨j, by omega⟩, by intro hp; have := h1.1 hp; omega, by intro hp; have := h1.2 hp; omega⟩
    · rintro ⟨⟨j, hj⟩, h1, h2⟩
      refine ⟨j, ?_, by omega⟩
      rw [List.mem_range, lt_count_iff a b k hk j]
      exact ⟨by intro hp; have := h1 hp; omega, by intro hp; have := h2 hp; omega⟩
  · intro hp
    rw [List.pairwise_map]
    refine List.Pairwise.imp_of_mem ?_ (List.pairwise_lt_range (n := Slice.count a b k))
    intro i j hi hj hij
    rw [List.mem_range] at hi hj
    have h1 := nonneg i hi
    have h2 := nonneg j hj
    have : (i : Int) * k < (j : Int) * k := Int.mul_lt_mul_of_pos_right (by omega) hp
    omega
  · intro hp
    rw [List.pairwise_map]
    refine List.Pairwise.imp_of_mem ?_ (List.pairwise_lt_range (n := Slice.count a b k))
    intro i j hi hj hij
    rw [List.mem_range] at hi hj
    have h1 := nonneg i hi
    have h2 := nonneg j hj
    have : (j : Int) * k < (i : Int) * k := Int.mul_lt_mul_of_neg_right (by omega) hp
    omega

theorem StartsAt.unique {s : Slice} {n : Nat} {k a a' : Int} (h : StartsAt s n k a) (h' : StartsAt s n k a') :
    a = a' := by
  unfold StartsAt Clipped at h h'
  cases hs : s.start with
  | none => rw [h.1 hs, h'.1 hs]
  | some v =>
    have h1 := h.2 v hs
    have h2 := h'.2 v hs
    by_cases hv : 0 ≤ v
    · rw [h1.1 hv, h2.1 hv]
    · rw [h1.2 (by omega), h2.2 (by omega)]

theorem StopsAt.unique {s : Slice} {n : Nat} {k a a' : Int} (h : StopsAt s n k a) (h' : StopsAt s n k a') :
    a = a' := by
  unfold StopsAt Clipped at h h'
  cases hs : s.stop with
  | none => rw [h.1 hs, h'.1 hs]
  | some v =>
    have h1 := h.2 v hs
    have h2 := h'.2 v hs
    by_cases hv : 0 ≤ v
    · rw [h1.1 hv, h2.1 hv]
    · rw [h1.2 (by omega), h2.2 (by omega)]

/-- Two lists with the same members, both ordered the same strict way, are equal. -/
theorem eq_of_pairwise {r : Nat → Nat → Prop} (irr : ∀ x, ¬ r x x) (asym : ∀ x y, r x y → ¬ r y x) :
    ∀ {l m : List Nat}, l.Pairwise r → m.Pairwise r → (∀ x, x ∈ l ↔ x ∈ m) → l = m
  | [], [], _, _, _ => rfl
  | [], y :: m, _, _, h => by have := (h y).2 (by simp); simp at this
  | x :: l, [], _, _, h => by have := (h x).1 (by simp); simp at this
  | x :: l, y :: m, hl, hm, h => by
    rw [List.pairwise_cons] at hl hm
    have hxy : x = y := by
      have h1 := (h x).1 (by simp)
      have h2 := (h y).2 (by simp)
      rw [List.mem_cons] at h1 h2
      rcases h1 with h1 | h1
      · exact h1
      · rcases h2 with h2 | h2
        · exact h2.symm
        · exact absurd (hl.1 y h2) (asym _ _ (hm.1 x h1))
    subst hxy
    have hnl : x ∉ l := fun hx => irr x (hl.1 x hx)
    have hnm : x ∉ m := fun hx => irr x (hm.1 x hx)
    congr 1
    refine eq_of_pairwise irr asym hl.2 hm.2 ?_
    intro z
    have := h z
    rw [List.mem_cons, List.mem_cons] at this
    constructor
    · intro hz
      rcases this.1 (Or.inr hz) with e | e
      · subst e; exact absurd hz hnl
      · exact e
    · intro hz
      rcases this.2 (Or.inr hz) with e | e
      · subst e; exact absurd hz hnm
      · exact e

/-- A slice with a non-zero step picks one list of positions only. -/
theorem Picks.unique {s : Slice} {n : Nat} {ps qs : List Nat} (hk : s.step ≠ some 0) (h : Picks s n ps)
    (h' : Picks s n qs) : ps = qs := by
  obtain ⟨a, b, k, hkk, ha, hb, hm, hp, hn⟩ := h
  obtain ⟨a', b', k', hkk', ha', hb', hm', hp', hn'⟩ := h'
  have e : k' = k := by rw [hkk, hkk']
  subst e
  have ea := ha.unique ha'
  have eb := hb.unique hb'
  subst ea eb
  have hk0 : k' ≠ 0 := by
    intro h0
    rw [h0] at hkk
    cases hs : s.step with
    | none => rw [hs] at hkk; simp at hkk
    | some v => rw [hs] at hkk; simp at hkk; exact hk (by rw [hs, ← hkk])
  have hmem : ∀ x, x ∈ ps ↔ x ∈ qs := fun x => (hm x).trans (hm' x).symm
  rcases Int.lt_or_gt_of_ne hk0 with h0 | h0
  · exact eq_of_pairwise (fun x => by omega) (fun x y => by omega) (hn h0) (hn' h0) hmem
  · exact eq_of_pairwise (fun x => by omega) (fun x y => by omega) (hp h0) (hp' h0) hmem

theorem picks_lt {s : Slice} {n : Nat} {ps : List Nat} (hk : s.step ≠ some 0) (h : Picks s n ps) :
    ∀ p ∈ ps, p < n := by
  obtain ⟨a, b, k, hkk, ha, hb, hm, hp, hn⟩ := h
  have hk0 : k ≠ 0 := by
    intro h0
    rw [h0] at hkk
    cases hs : s.step with
    | none => rw [hs] at hkk; simp at hkk
    | some v => rw [hs] at hkk; simp at hkk; exact hk (by rw [hs, ← hkk])
  intro p hpm
  obtain ⟨⟨j, hj⟩, h1, h2⟩ := (hm p).1 hpm
  rcases Int.lt_or_gt_of_ne hk0 with h0 | h0
  · have := (ha.bounds hk0).2 h0
    have : (j : Int) * k ≤ 0 := Int.mul_nonpos_of_nonneg_of_nonpos (by omega) (by omega)
    omega
  · have := (hb.bounds hk0).1 h0
    have := h1 h0
    omega

/-- `l[s]` in the model: the picked positions of the list, in order. -/
theorem getSlice_iff {α : Type} (l : List α) (s : Slice) (xs : List α) :
    getSlice l s = some xs ↔
      s.step ≠ some 0 ∧ ∃ ps, Picks s l.length ps ∧ xs.map some = ps.map (fun p => l[p]?) := by
  have key : ∀ ps : List Nat, (∀ p ∈ ps, p < l.length) →
      (ps.filterMap (fun p => l[p]?)).map some = ps.map (fun p => l[p]?) := by
    intro ps
    induction ps with
    | nil => simp
    | cons p ps ih =>
      intro h
      have hp := h p (by simp)
      rw [List.filterMap_cons, List.getElem?_eq_getElem hp]
      simp only [List.map_cons, List.getElem?_eq_getElem hp]
      rw [ih (fun q hq => h q (by simp [hq]))]
  constructor
  · intro h
    unfold getSlice at h
    cases hps : s.positions l.length with
    | none => rw [hps] at h; cases h
    | some ps =>
      rw [hps] at h
      simp only [Option.map_some, Option.some.injEq] at h
      have hk : s.step ≠ some 0 := by
        intro h0; rw [(positions_none s _).2 h0] at hps; cases hps
      refine ⟨hk, ps, positions_picks hps, ?_⟩
      rw [← h]
      exact key ps (picks_lt hk (positions_picks hps))
  · rintro ⟨hk, ps, hp, hx⟩
    unfold getSlice
    cases hps : s.positions l.length with
    | none => exact absurd ((positions_none s _).1 hps) hk
    | some qs =>
      have e := Picks.unique hk (positions_picks hps) hp
      subst e
      rw [← key qs (picks_lt hk hp)] at hx
      rw [List.map_inj_right (fun _ _ h => by cases h; rfl)] at hx
      rw [hx]; rfl

end Verif.Py
