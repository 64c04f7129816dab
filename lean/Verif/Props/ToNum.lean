import Verif.Model.ToNum

set_option linter.unusedSectionVars false
set_option linter.unusedSimpArgs false
set_option linter.unusedVariables false

namespace Verif.ToNum

/-! ## C72: the result lies within the bounds -/

/-- A result within bounds; NaN and values beyond a bound are not. -/
def Within (ub lb : Option Rat) : Num → Prop
  | .int n => (∀ u ∈ ub, (n : Rat) ≤ u) ∧ (∀ l ∈ lb, l ≤ (n : Rat))
  | .float (.fin q) => (∀ u ∈ ub, q ≤ u) ∧ (∀ l ∈ lb, l ≤ q)
  | .float .posInf => ub = none
  | .float .negInf => lb = none
  | .float .nan => ub = none ∧ lb = none

theorem inBounds_fin {ub lb : Option Rat} {q : Rat} (h : outOfBounds ub lb (.fin q) = false) : (∀ u ∈ ub, q ≤ u) ∧ (∀ l ∈ lb, l ≤ q) := by
  simp only [outOfBounds, Bool.or_eq_false_iff] at h
  constructor
  · intro u hu
    cases ub with
    | none => cases hu
    | some u' =>
      simp only [Option.mem_some] at hu
      have := h.1
      simp only [Option.any_some, gt, decide_eq_false_iff_not, Rat.not_lt] at this
      rw [← hu]; exact this
  · intro l hl
    cases lb with
    | none => cases hl
    | some l' =>
      simp only [Option.mem_some] at hl
      have := h.2
      simp only [Option.any_some, lt, decide_eq_false_iff_not, Rat.not_lt] at this
      rw [← hl]; exact this

theorem trunc_le {q : Rat} {n : Int} (h : q ≤ n) : trunc q ≤ n := by
  simp only [trunc]
  split
  · exact Int.le_of_lt_add_one (Rat.floor_lt_iff.2 (by
      have : (n : Rat) < ((n + 1 : Int) : Rat) := Rat.intCast_lt_intCast.2 (by omega)
      grind))
  · exact Rat.ceil_le_iff.2 h

theorem le_trunc {q : Rat} {n : Int} (h : (n : Rat) ≤ q) : n ≤ trunc q := by
  simp only [trunc]
  split
  · exact Rat.le_floor_iff.2 h
  · have : (n : Rat) ≤ (q.ceil : Rat) := Rat.le_trans h Rat.le_ceil
    exact Rat.intCast_le_intCast.1 this

/-- Without rounding, a finite float result is the converted value and lies within the bounds; with rounding it does if rounding is monotone and leaves the
bounds fixed; an int result does if the bounds are integers.  Missing: fractional bounds with `num_type=int`, bounds finer than the precision, NaN. -/
theorem C72_within_partial (ub lb : Option Rat) (isInt : Bool) (round : Option (Rat → Rat)) (i : Input) (r : Num)
    (h : toNum ub lb isInt round i = .ok r)
    (hint : isInt = true → (∀ u ∈ ub, ∃ n : Int, u = n) ∧ (∀ l ∈ lb, ∃ n : Int, l = n))
    (hround : ∀ f ∈ round, (∀ a b, a ≤ b → f a ≤ f b) ∧ (∀ u ∈ ub, f u = u) ∧ (∀ l ∈ lb, f l = l))
    (hnan : convert i ≠ .ok .nan) : Within ub lb r := by
  simp only [toNum] at h
  cases hc : convert i with
  | error e => rw [hc] at h; cases h
  | ok x =>
    rw [hc] at h hnan
    simp only at h
    split at h
    · cases h
    · rename_i hb
      have hb : outOfBounds ub lb x = false := Bool.eq_false_iff.2 hb
      cases isInt with
      | true =>
        simp only [finish, if_true] at h
        cases x with
        | fin q =>
          obtain ⟨h1, h2⟩ := inBounds_fin hb
          simp only [toInt] at h
          injection h with h
          subst h
          obtain ⟨hu, hl⟩ := hint rfl
          constructor
          · intro u hu'
            obtain ⟨n, rfl⟩ := hu u hu'
            exact Rat.intCast_le_intCast.2 (trunc_le (h1 _ hu'))
          · intro l hl'
            obtain ⟨n, rfl⟩ := hl l hl'
            exact Rat.intCast_le_intCast.2 (le_trunc (h2 _ hl'))
        | posInf => simp only [toInt] at h; cases h
        | negInf => simp only [toInt] at h; cases h
        | nan => simp only [toInt] at h; cases h
      | false =>
        have hinf : x = .posInf → ub = none := by
          rintro rfl
          cases ub with
          | none => rfl
          | some u => simp [outOfBounds, gt] at hb
        have hninf : x = .negInf → lb = none := by
          rintro rfl
          cases lb with
          | none => rfl
          | some u => simp [outOfBounds, lt] at hb
        cases round with
        | none =>
          simp only [finish, Bool.false_eq_true, if_false] at h
          injection h with h
          subst h
          cases x with
          | fin q => exact inBounds_fin hb
          | posInf => exact hinf rfl
          | negInf => exact hninf rfl
          | nan => exact absurd rfl hnan
        | some f =>
          simp only [finish, Bool.false_eq_true, if_false] at h
          injection h with h
          subst h
          cases x with
          | fin q =>
            obtain ⟨h1, h2⟩ := inBounds_fin hb
            obtain ⟨hm, hu, hl⟩ := hround f rfl
            constructor
            · intro u hu'
              have := hm q u (h1 u hu')
              rw [hu u hu'] at this; exact this
            · intro l hl'
              have := hm l q (h2 l hl')
              rw [hl l hl'] at this; exact this
          | posInf => exact hinf rfl
          | negInf => exact hninf rfl
          | nan => exact absurd rfl hnan

/-- Rounding to one decimal place, ties upwards, for the examples. -/
def round1 (q : Rat) : Rat := ((q * 10 + 1 / 2).floor : Rat) / 10

/-- A value on the bound is rounded beyond it: `to_num(1.26, upper_bound=1.26, precision=1)` is 1.3. -/
theorem C72_precision_violation :
    toNum (some (126 / 100)) none false (some round1) (.float (.fin (126 / 100))) = .ok (.float (.fin (13 / 10))) ∧ (126 / 100 : Rat) < 13 / 10 := by
  decide +kernel

/-- Truncation falls below a fractional lower bound: `to_num(0.7, lower_bound=0.5, num_type=int)` is 0. -/
theorem C72_int_violation : toNum none (some (1 / 2)) true none (.float (.fin (7 / 10))) = .ok (.int 0) ∧ ((0 : Int) : Rat) < 1 / 2 := by
  decide +kernel

/-- NaN passes every bounds check. -/
theorem C72_nan_violation (ub lb : Rat) : toNum (some ub) (some lb) false none (.float .nan) = .ok (.float .nan) := rfl

example : toNum (some 10) (some 0) true none (.str (some (.fin (7 / 2)))) = .ok (.int 3) := by decide +kernel
example : toNum (some 10) (some 0) false (some round1) (.str (some (.fin (7 / 3)))) = .ok (.float (.fin (23 / 10))) := by decide +kernel

/-- Rejections are for a reason: an error is a conversion failure, a value outside the bounds, or an int of an infinity or NaN. -/
theorem C72_rejects (ub lb : Option Rat) (isInt : Bool) (round : Option (Rat → Rat)) (i : Input) (e : Exc) (h : toNum ub lb isInt round i = .error e) :
    convert i = .error e ∨ (∃ q, convert i = .ok (.fin q) ∧ ((∃ u ∈ ub, u < q) ∨ ∃ l ∈ lb, q < l)) ∨
      (∃ x, convert i = .ok x ∧ x ∈ [F.posInf, F.negInf, F.nan]) := by
  simp only [toNum] at h
  cases hc : convert i with
  | error e' => rw [hc] at h; injection h with h; exact Or.inl (by rw [h])
  | ok x =>
    rw [hc] at h
    cases x with
    | fin q =>
      right; left
      refine ⟨q, rfl, ?_⟩
      simp only at h
      split at h
      · rename_i hb
        simp only [outOfBounds, Bool.or_eq_true] at hb
        rcases hb with hb | hb
        · cases ub with
          | none => cases hb
          | some u => exact Or.inl ⟨u, rfl, of_decide_eq_true hb⟩
        · cases lb with
          | none => cases hb
          | some l => exact Or.inr ⟨l, rfl, of_decide_eq_true hb⟩
      · cases isInt with
        | true => simp only [finish, if_true, toInt] at h; cases h
        | false => cases round <;> (simp only [finish, Bool.false_eq_true, if_false] at h; cases h)
    | posInf => exact Or.inr (Or.inr ⟨_, rfl, by simp⟩)
    | negInf => exact Or.inr (Or.inr ⟨_, rfl, by simp⟩)
    | nan => exact Or.inr (Or.inr ⟨_, rfl, by simp⟩)

/-! ## C128: integers convert exactly -/

/-- The whole numbers that are doubles (up to their size): 53 bits times a power of two. -/
def Double (m : Nat) : Prop := ∃ a e, a < 2 ^ 53 ∧ m = a * 2 ^ e

/-- `m` is the double nearest to `n`; of two nearest ones, the one whose last bit is zero. -/
def Nearest (n m : Nat) : Prop :=
  Double m ∧ (∀ d, Double d → ((n : Int) - m).natAbs ≤ ((n : Int) - d).natAbs) ∧
  ∀ d, Double d → d ≠ m → ((n : Int) - m).natAbs = ((n : Int) - d).natAbs → ∃ a e, a % 2 = 0 ∧ 2 ^ 52 ≤ a ∧ m = a * 2 ^ e

theorem double_gap {q k d : Nat} (hq : 2 ^ 52 ≤ q) (hk : 0 < k) (hd : Double d) : d ≤ q * 2 ^ k ∨ (q + 1) * 2 ^ k ≤ d := by
  obtain ⟨a, e, ha, rfl⟩ := hd
  by_cases he : k ≤ e
  · obtain ⟨j, rfl⟩ : ∃ j, e = k + j := ⟨e - k, by omega⟩
    have h1 : a * 2 ^ (k + j) = (a * 2 ^ j) * 2 ^ k := by rw [Nat.pow_add]; ac_rfl
    rw [h1]
    by_cases h : a * 2 ^ j ≤ q
    · exact Or.inl (Nat.mul_le_mul_right _ h)
    · exact Or.inr (Nat.mul_le_mul_right _ (by omega))
  · left
    obtain ⟨j, rfl⟩ : ∃ j, k = e + 1 + j := ⟨k - e - 1, by omega⟩
    have h1 : q * 2 ^ (e + 1 + j) = (q * 2 * 2 ^ j) * 2 ^ e := by rw [Nat.pow_add, Nat.pow_add]; simp only [Nat.pow_one]; ac_rfl
    rw [h1]
    apply Nat.mul_le_mul_right
    have h2 : 1 ≤ 2 ^ j := Nat.one_le_two_pow
    have h3 : q * 2 * 1 ≤ q * 2 * 2 ^ j := Nat.mul_le_mul_left _ h2
    omega

theorem double_le {a e : Nat} (ha : a ≤ 2 ^ 53) : Double (a * 2 ^ e) := by
  by_cases h : a < 2 ^ 53
  · exact ⟨a, e, h, rfl⟩
  · have : a = 2 ^ 53 := by omega
    subst this
    exact ⟨2 ^ 52, e + 1, by decide, by rw [Nat.pow_succ 2 e]; rw [show (2 : Nat) ^ 53 = 2 ^ 52 * 2 from rfl]; ac_rfl⟩

/-- C128: `float(n)` as modelled is the double nearest to `n`, ties to even. -/
theorem C128_nearest (n : Nat) : Nearest n (round53 n) := by
  unfold round53
  by_cases hn : n < 2 ^ 53
  · rw [if_pos hn]
    refine ⟨⟨n, 0, hn, by simp⟩, ?_, ?_⟩
    · intro d _; omega
    · intro d _ hne h; omega
  · rw [if_neg hn]
    have hn0 : n ≠ 0 := by intro h; subst h; exact hn (by decide)
    have hlog : 53 ≤ n.log2 := (Nat.le_log2 hn0).2 (by omega)
    have hlow : 2 ^ n.log2 ≤ n := Nat.log2_self_le hn0
    have hhigh : n < 2 ^ (n.log2 + 1) := Nat.lt_log2_self
    generalize hk : n.log2 - 52 = k
    have hkpos : 0 < k := by omega
    have hl : n.log2 = 52 + k := by omega
    rw [hl] at hlow hhigh
    have hdm : 2 ^ k * (n / 2 ^ k) + n % 2 ^ k = n := Nat.div_add_mod n (2 ^ k)
    have hpos : 0 < 2 ^ k := Nat.two_pow_pos k
    have hmod : n % 2 ^ k < 2 ^ k := Nat.mod_lt _ hpos
    have hq1 : 2 ^ 52 ≤ n / 2 ^ k := by
      rw [Nat.le_div_iff_mul_le hpos, ← Nat.pow_add]; exact hlow
    have hq2 : n / 2 ^ k < 2 ^ 53 := by
      rw [Nat.div_lt_iff_lt_mul hpos, ← Nat.pow_add]
      rw [show 53 + k = 52 + k + 1 by omega]; exact hhigh
    generalize n / 2 ^ k = q at *
    generalize n % 2 ^ k = r at *
    have hgap := fun d (hd : Double d) => double_gap (k := k) hq1 hkpos hd
    have hmul : (q + 1) * 2 ^ k = q * 2 ^ k + 2 ^ k := by rw [Nat.add_mul, Nat.one_mul]
    rw [hmul] at hgap
    have hD0 : Double (q * 2 ^ k) := double_le (by omega)
    have hD1 : Double ((q + 1) * 2 ^ k) := double_le (by omega)
    rw [Nat.mul_comm] at hdm
    by_cases h1 : 2 * r < 2 ^ k
    · rw [if_pos h1]
      refine ⟨hD0, ?_, ?_⟩
      · intro d hd; rcases hgap d hd with h | h <;> omega
      · intro d hd hne h; rcases hgap d hd with h | h <;> omega
    · rw [if_neg h1]
      by_cases h2 : 2 * r = 2 ^ k ∧ q % 2 = 0
      · rw [if_pos h2]
        refine ⟨hD0, ?_, ?_⟩
        · intro d hd; rcases hgap d hd with h | h <;> omega
        · intro d hd hne h; exact ⟨q, k, h2.2, hq1, rfl⟩
      · rw [if_neg h2]
        refine ⟨hD1, ?_, ?_⟩
        · intro d hd
          rw [hmul]
          rcases hgap d hd with h | h <;> omega
        · intro d hd hne h
          refine ⟨q + 1, k, ?_, by omega, rfl⟩
          rw [hmul] at h hne
          have : 2 * r = 2 ^ k := by rcases hgap d hd with h' | h' <;> omega
          by_cases he : q % 2 = 0
          · exact absurd ⟨this, he⟩ h2
          · omega

theorem nearest_unique {n a b : Nat} (ha : Nearest n a) (hb : Nearest n b) (hlt : n < 2 ^ 53) : a = b := by
  have hn : Double n := ⟨n, 0, hlt, by simp⟩
  have h1 := ha.2.1 n hn
  have h2 := hb.2.1 n hn
  omega

theorem trunc_int (n : Int) : trunc (n : Rat) = n := by
  simp only [trunc, Rat.floor_intCast, Rat.ceil_intCast, ite_self]

/-- C128: `to_num(n, num_type=int)` is, with the sign of `n`, the double nearest to `|n|`, and OverflowError if that is 2^1024
or more. -/
theorem C128_general (n : Int) : ∃ m, Nearest n.natAbs m ∧
    toNum none none true none (.int n) = (if m < 2 ^ 1024 then .ok (.int (n.sign * m)) else .error .overflowError) := by
  refine ⟨round53 n.natAbs, C128_nearest _, ?_⟩
  have h1 : ofInt n = n.sign * (round53 n.natAbs : Int) := by
    unfold ofInt
    by_cases h : 0 ≤ n
    · rw [if_pos h]
      by_cases h0 : n = 0
      · subst h0; simp [round53]
      · rw [Int.sign_eq_one_of_pos (by omega)]; omega
    · rw [if_neg h, Int.sign_eq_neg_one_of_neg (by omega)]; omega
  simp only [toNum, convert, floatOfInt]
  by_cases hb : round53 n.natAbs < 2 ^ 1024
  · rw [if_pos hb, if_pos hb]
    simp only [outOfBounds, Option.any_none, Bool.or_self, Bool.false_eq_true, if_false, finish, if_true, toInt, trunc_int, h1]
  · rw [if_neg hb, if_neg hb]

/-- `to_num(n, num_type=int)` is `n` for every `n` of at most 53 bits. -/
theorem C128_exact (n : Int) (h : n.natAbs < 2 ^ 53) : toNum none none true none (.int n) = .ok (.int n) := by
  obtain ⟨m, hm, he⟩ := C128_general n
  have hd : Double n.natAbs := ⟨n.natAbs, 0, h, by simp⟩
  have h1 := hm.2.1 _ hd
  have h2 : m = n.natAbs := by omega
  have h3 : m < 2 ^ 1024 := Nat.lt_of_lt_of_le (by rw [h2]; exact h) (Nat.pow_le_pow_right (by decide) (by decide))
  rw [he, if_pos h3, h2, Int.sign_mul_natAbs]

/-- A 54-bit integer changes: `to_num(9007199254740993, num_type=int)` is 9007199254740992. -/
theorem C128_large_limit : toNum none none true none (.int 9007199254740993) = .ok (.int 9007199254740992) := by decide +kernel

example : (123456789 : Int).natAbs < 2 ^ 53 := by decide
example : round53 (2 ^ 60 + 128) = 2 ^ 60 ∧ round53 (2 ^ 60 + 384) = 2 ^ 60 + 512 := by decide +kernel

/-! ## C72: the exact rule -/

/-- What an input stands for (`round53` is the nearest double, `C128_nearest`). -/
def Reads (i : Input) (x : F) : Prop :=
  (∃ n m, i = .int n ∧ m < 2 ^ 1024 ∧ m = round53 n.natAbs ∧ x = .fin ((n.sign * (m : Int) : Int) : Rat)) ∨ i = .float x ∨ i = .str (some x)

/-- Beyond the upper bound, if there is one. -/
def Above (ub : Option Rat) (x : F) : Prop := ∃ u, ub = some u ∧ (x = .posInf ∨ ∃ q, x = .fin q ∧ u < q)

/-- Below the lower bound, if there is one. -/
def Below (lb : Option Rat) (x : F) : Prop := ∃ l, lb = some l ∧ (x = .negInf ∨ ∃ q, x = .fin q ∧ q < l)

/-- The integer part of `q`. -/
def IntegerPart (q : Rat) (n : Int) : Prop := (0 ≤ q → (n : Rat) ≤ q ∧ q < ((n + 1 : Int) : Rat)) ∧ (q ≤ 0 → q ≤ (n : Rat) ∧ ((n - 1 : Int) : Rat) < q)

theorem trunc_part (q : Rat) : IntegerPart q (trunc q) := by
  unfold IntegerPart trunc
  constructor
  · intro h; rw [if_pos h]; exact ⟨Rat.floor_le q, Rat.lt_floor_add_one q⟩
  · intro h
    by_cases h0 : 0 ≤ q
    · have : q = 0 := Rat.le_antisymm h h0
      subst this
      rw [if_pos h0]; decide +kernel
    · rw [if_neg h0]
      refine ⟨Rat.le_ceil, ?_⟩
      have := (Rat.lt_ceil_iff (x := q) (y := q.ceil - 1)).1 (by omega)
      exact this

theorem part_unique {q : Rat} {a b : Int} (ha : IntegerPart q a) (hb : IntegerPart q b) : a = b := by
  have key : ∀ {a b : Int}, IntegerPart q a → IntegerPart q b → a < b + 1 := by
    intro a b ha hb
    rcases Rat.le_total (a := 0) (b := q) with h | h
    · have h1 := (ha.1 h).1
      have h2 := (hb.1 h).2
      have h3 : (a : Rat) < ((b + 1 : Int) : Rat) := by grind
      exact Rat.intCast_lt_intCast.1 h3
    · have h1 := (ha.2 h).2
      have h2 := (hb.2 h).1
      have h3 : ((a - 1 : Int) : Rat) < (b : Rat) := by grind
      have := Rat.intCast_lt_intCast.1 h3
      omega
  have h1 := key ha hb
  have h2 := key hb ha
  omega

theorem above_iff (ub : Option Rat) (x : F) : ub.any (gt x) = true ↔ Above ub x := by
  cases ub with
  | none => simp [Above]
  | some u => cases x <;> simp [Above, gt]

theorem below_iff (lb : Option Rat) (x : F) : lb.any (lt x) = true ↔ Below lb x := by
  cases lb with
  | none => simp [Below]
  | some l => cases x <;> simp [Below, lt]

theorem ofInt_sign (n : Int) : ofInt n = n.sign * (round53 n.natAbs : Int) := by
  unfold ofInt
  by_cases h : 0 ≤ n
  · rw [if_pos h]
    by_cases h0 : n = 0
    · subst h0; simp [round53]
    · rw [Int.sign_eq_one_of_pos (by omega)]; omega
  · rw [if_neg h, Int.sign_eq_neg_one_of_neg (by omega)]; omega

theorem convert_ok (i : Input) (x : F) : convert i = .ok x ↔ Reads i x := by
  cases i with
  | int n =>
    simp only [convert, floatOfInt, Reads, ofInt_sign]
    constructor
    · intro h
      split at h
      · next hb => exact Or.inl ⟨n, _, rfl, hb, rfl, (Except.ok.inj h).symm⟩
      · cases h
    · rintro (⟨n', m, hn, hb, rfl, rfl⟩ | h | h)
      · cases hn; rw [if_pos hb]
      · cases h
      · cases h
  | float y => simp [convert, Reads]
  | str y => cases y <;> simp [convert, Reads]
  | other => simp [convert, Reads]

theorem convert_error (i : Input) (e : Exc) : convert i = .error e ↔
    (i = .other ∧ e = .typeError) ∨ (i = .str none ∧ e = .valueError) ∨ (∃ n, i = .int n ∧ 2 ^ 1024 ≤ round53 n.natAbs ∧ e = .overflowError) := by
  cases i with
  | int n =>
    simp only [convert, floatOfInt]
    by_cases hb : round53 n.natAbs < 2 ^ 1024
    · rw [if_pos hb]
      constructor
      · intro h; cases h
      · rintro (⟨h, -⟩ | ⟨h, -⟩ | ⟨n', h, h2, -⟩)
        · cases h
        · cases h
        · cases h; omega
    · rw [if_neg hb]
      constructor
      · intro h; exact Or.inr (Or.inr ⟨n, rfl, by omega, (Except.error.inj h).symm⟩)
      · rintro (⟨h, -⟩ | ⟨h, -⟩ | ⟨n', h, h2, h3⟩)
        · cases h
        · cases h
        · rw [h3]
  | float y => simp [convert]
  | str y => cases y <;> simp [convert, eq_comm]
  | other => simp [convert, eq_comm]

theorem bounds_iff (ub lb : Option Rat) (x : F) : outOfBounds ub lb x = true ↔ Above ub x ∨ Below lb x := by
  rw [outOfBounds, Bool.or_eq_true, above_iff, below_iff]

/-- C72, the exact rule for results: the value read is not beyond a bound; as an int it is the integer part, as a float the
value, rounded if a precision is given. -/
theorem C72_exact_partial (ub lb : Option Rat) (isInt : Bool) (round : Option (Rat → Rat)) (i : Input) (r : Num) :
    toNum ub lb isInt round i = .ok r ↔ ∃ x, Reads i x ∧ ¬ Above ub x ∧ ¬ Below lb x ∧
      ((isInt = true ∧ ∃ q n, x = .fin q ∧ IntegerPart q n ∧ r = .int n) ∨
       (isInt = false ∧ ((round = none ∨ ∀ q, x ≠ .fin q) ∧ r = .float x ∨ ∃ f q, round = some f ∧ x = .fin q ∧ r = .float (.fin (f q))))) := by
  have hfin : ∀ x, finish isInt round x = .ok r ↔ ((isInt = true ∧ ∃ q n, x = .fin q ∧ IntegerPart q n ∧ r = .int n) ∨
       (isInt = false ∧ ((round = none ∨ ∀ q, x ≠ .fin q) ∧ r = .float x ∨ ∃ f q, round = some f ∧ x = .fin q ∧ r = .float (.fin (f q))))) := by
    intro x
    cases isInt with
    | true =>
      simp only [finish, if_true]
      cases x with
      | fin q =>
        simp only [toInt]
        constructor
        · intro h; exact Or.inl ⟨trivial, q, trunc q, rfl, trunc_part q, (Except.ok.inj h).symm⟩
        · rintro (⟨-, q', n, hq, hp, rfl⟩ | ⟨h, -⟩)
          · cases hq; rw [part_unique hp (trunc_part q)]
          · cases h
      | _ => simp [toInt]
    | false =>
      simp only [finish, Bool.false_eq_true, if_false]
      cases round with
      | none => cases x <;> simp [eq_comm]
      | some f => cases x <;> simp [roundF, eq_comm]
  simp only [toNum]
  cases hc : convert i with
  | error e =>
    constructor
    · intro h; cases h
    · rintro ⟨x, hx, -⟩
      rw [(convert_ok i x).2 hx] at hc; cases hc
  | ok x =>
    have hr := (convert_ok i x).1 hc
    simp only
    by_cases hb : outOfBounds ub lb x = true
    · rw [if_pos hb]
      constructor
      · intro h; cases h
      · rintro ⟨y, hy, h1, h2, -⟩
        have : y = x := by rw [(convert_ok i y).2 hy] at hc; exact Except.ok.inj hc
        subst this
        rcases (bounds_iff ub lb y).1 hb with h | h
        · exact absurd h h1
        · exact absurd h h2
    · rw [if_neg hb, hfin]
      constructor
      · intro h; exact ⟨x, hr, fun h' => hb ((bounds_iff ub lb x).2 (Or.inl h')), fun h' => hb ((bounds_iff ub lb x).2 (Or.inr h')), h⟩
      · rintro ⟨y, hy, -, -, h⟩
        have : y = x := by rw [(convert_ok i y).2 hy] at hc; exact Except.ok.inj hc
        subst this; exact h

/-- C72, the exact rule for failures: TypeError for what is not a number or text; ValueError for text that is no number, values beyond a
bound and the integer part of NaN; OverflowError for the integer part of an infinity and for ints beyond the doubles. -/
theorem C72_errors_partial (ub lb : Option Rat) (isInt : Bool) (round : Option (Rat → Rat)) (i : Input) (e : Exc) :
    toNum ub lb isInt round i = .error e ↔
      (i = .other ∧ e = .typeError) ∨ (i = .str none ∧ e = .valueError) ∨ (∃ n, i = .int n ∧ 2 ^ 1024 ≤ round53 n.natAbs ∧ e = .overflowError) ∨
      ∃ x, Reads i x ∧ (((Above ub x ∨ Below lb x) ∧ e = .valueError) ∨
        (¬ Above ub x ∧ ¬ Below lb x ∧ isInt = true ∧ ((x = .nan ∧ e = .valueError) ∨ ((x = .posInf ∨ x = .negInf) ∧ e = .overflowError)))) := by
  simp only [toNum]
  cases hc : convert i with
  | error e' =>
    simp only
    have h1 := (convert_error i e').1 hc
    constructor
    · intro h
      cases h
      rcases h1 with h | h | h
      · exact Or.inl h
      · exact Or.inr (Or.inl h)
      · exact Or.inr (Or.inr (Or.inl h))
    · intro h
      have h2 : (∃ x, Reads i x ∧ (((Above ub x ∨ Below lb x) ∧ e = .valueError) ∨
        (¬ Above ub x ∧ ¬ Below lb x ∧ isInt = true ∧ ((x = .nan ∧ e = .valueError) ∨ ((x = .posInf ∨ x = .negInf) ∧ e = .overflowError))))) → False := by
        rintro ⟨x, hx, -⟩
        rw [(convert_ok i x).2 hx] at hc; cases hc
      have h3 : convert i = .error e := by
        refine (convert_error i e).2 ?_
        rcases h with h | h | h | h
        · exact Or.inl h
        · exact Or.inr (Or.inl h)
        · exact Or.inr (Or.inr h)
        · exact absurd h h2
      rw [hc] at h3; rw [Except.error.inj h3]
  | ok x =>
    simp only
    have hr := (convert_ok i x).1 hc
    have hno : ¬ ((i = .other ∧ e = .typeError) ∨ (i = .str none ∧ e = .valueError) ∨ (∃ n, i = .int n ∧ 2 ^ 1024 ≤ round53 n.natAbs ∧ e = .overflowError)) := by
      intro h
      rw [(convert_error i e).2 h] at hc; cases hc
    have huniq : ∀ y, Reads i y → y = x := by
      intro y hy
      rw [(convert_ok i y).2 hy] at hc; exact Except.ok.inj hc
    by_cases hb : outOfBounds ub lb x = true
    · rw [if_pos hb]
      have hab := (bounds_iff ub lb x).1 hb
      constructor
      · intro h; exact Or.inr (Or.inr (Or.inr ⟨x, hr, Or.inl ⟨hab, (Except.error.inj h).symm⟩⟩))
      · rintro (h | h | h | ⟨y, hy, h⟩)
        · exact absurd (Or.inl h) hno
        · exact absurd (Or.inr (Or.inl h)) hno
        · exact absurd (Or.inr (Or.inr h)) hno
        · rw [huniq y hy] at h
          rcases h with ⟨-, rfl⟩ | ⟨h1, h2, -⟩
          · rfl
          · rcases hab with h | h
            · exact absurd h h1
            · exact absurd h h2
    · rw [if_neg hb]
      have hna : ¬ Above ub x := fun h' => hb ((bounds_iff ub lb x).2 (Or.inl h'))
      have hnb : ¬ Below lb x := fun h' => hb ((bounds_iff ub lb x).2 (Or.inr h'))
      have hfin : finish isInt round x = .error e ↔ isInt = true ∧ ((x = .nan ∧ e = .valueError) ∨ ((x = .posInf ∨ x = .negInf) ∧ e = .overflowError)) := by
        cases isInt with
        | true => cases x <;> simp [finish, toInt, eq_comm]
        | false => cases round <;> simp [finish]
      rw [hfin]
      constructor
      · intro h; exact Or.inr (Or.inr (Or.inr ⟨x, hr, Or.inr ⟨hna, hnb, h⟩⟩))
      · rintro (h | h | h | ⟨y, hy, h⟩)
        · exact absurd (Or.inl h) hno
        · exact absurd (Or.inr (Or.inl h)) hno
        · exact absurd (Or.inr (Or.inr h)) hno
        · rw [huniq y hy] at h
          rcases h with ⟨h1 | h1, -⟩ | ⟨-, -, h⟩
          · exact absurd h1 hna
          · exact absurd h1 hnb
          · exact h

example : toNum none none true none (.float .posInf) = .error .overflowError := rfl
example : IntegerPart (-7 / 2) (-3) := by unfold IntegerPart; decide +kernel

end Verif.ToNum
