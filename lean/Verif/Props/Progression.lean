import Verif.Model.Progression

/-!
# Properties C01–C04: `Progression`
-/

set_option linter.unusedSectionVars false
set_option linter.unusedSimpArgs false
set_option linter.unnecessarySimpa false

namespace Verif.Progression

variable {ι : Type} [DecidableEq ι]

/-! ## Specification vocabulary -/

/-- The position addressed by a Python index `i` in a sequence of length `n`. -/
def Addresses (n : Nat) (i : Int) (p : Nat) : Prop :=
  p < n ∧ (i = (p : Int) ∨ i = (p : Int) - n)

/-- The insertion gap addressed by a Python index `i` in a sequence of length `n`: `i` itself,
or `n + i` for a negative one. -/
def AddressesGap (n : Nat) (i : Int) (p : Nat) : Prop :=
  p ≤ n ∧ ((0 ≤ i ∧ i = (p : Int)) ∨ (i < 0 ∧ i = (p : Int) - n))

/-! ## Helper lemmas -/

theorem validateIndex_false_iff (o : List ι) (i : Int) (p : Nat) :
    validateIndex o i false = .ok p ↔ Addresses o.length i p := by
  unfold validateIndex Addresses
  simp only [Bool.false_eq_true, not_false_iff, and_true, if_false]
  repeat' split
  all_goals first
    | (simp only [Except.ok.injEq, reduceCtorEq, false_iff]; omega)
    | (constructor <;> intro h <;> simp_all <;> omega)

theorem validateIndex_true_iff (o : List ι) (i : Int) (p : Nat) :
    validateIndex o i true = .ok p ↔ AddressesGap o.length i p := by
  unfold validateIndex AddressesGap
  simp only [not_true_eq_false, and_false, if_false, if_true]
  repeat' split
  all_goals (simp only [Except.ok.injEq, reduceCtorEq, false_iff]; omega)

theorem validateIndex_error (o : List ι) (i : Int) (b : Bool) (e : Exc)
    (h : validateIndex o i b = .error e) : e = .notFound := by
  unfold validateIndex at h
  dsimp only at h
  split at h
  · simp_all
  · split at h <;> split at h <;> split at h <;> simp_all

theorem normIndex_eq_some_iff (n : Nat) (i : Int) (p : Nat) :
    Py.normIndex n i = some p ↔ Addresses n i p := by
  unfold Py.normIndex Addresses
  dsimp only
  split <;> split <;> simp only [Option.some.injEq, reduceCtorEq, false_iff] <;> omega

theorem normIndex_eq_none_iff (n : Nat) (i : Int) :
    Py.normIndex n i = none ↔ ¬ (-(n : Int) ≤ i ∧ i < n) := by
  unfold Py.normIndex
  dsimp only
  split <;> split <;> simp only [reduceCtorEq, false_iff, true_iff] <;> omega

theorem addresses_exists_iff (n : Nat) (i : Int) :
    (∃ p, Addresses n i p) ↔ (-(n : Int) ≤ i ∧ i < n) := by
  unfold Addresses
  constructor
  · rintro ⟨p, h⟩; omega
  · intro h
    by_cases hi : 0 ≤ i
    · exact ⟨i.toNat, by omega⟩
    · exact ⟨(i + n).toNat, by omega⟩

theorem addressesGap_exists_iff (n : Nat) (i : Int) :
    (∃ p, AddressesGap n i p) ↔ (-(n : Int) ≤ i ∧ i ≤ n) := by
  unfold AddressesGap
  constructor
  · rintro ⟨p, h⟩; omega
  · intro h
    by_cases hi : 0 ≤ i
    · exact ⟨i.toNat, by omega⟩
    · exact ⟨(i + n).toNat, by omega⟩

theorem normIndex_natCast {n p : Nat} (h : p < n) : Py.normIndex n (p : Int) = some p :=
  (normIndex_eq_some_iff _ _ _).2 ⟨h, Or.inl rfl⟩

theorem popIdx_natCast {o : List ι} {p : Nat} (h : p < o.length) :
    Py.popIdx o (p : Int) = some (o[p], o.eraseIdx p) := by
  unfold Py.popIdx
  rw [normIndex_natCast h]
  simp [List.getElem?_eq_getElem h]

theorem insert_natCast {o : List ι} {p : Nat} (h : p ≤ o.length) (x : ι) :
    Py.insert o (p : Int) x = o.insertIdx p x := by
  unfold Py.insert
  dsimp only
  rw [if_neg (by omega), if_neg (by omega)]
  simp

theorem insertIdx_perm_cons (o : List ι) (p : Nat) (h : p ≤ o.length) (x : ι) :
    (o.insertIdx p x).Perm (x :: o) := by
  induction p generalizing o with
  | zero => simp
  | succ p ih =>
    cases o with
    | nil => simp at h
    | cons a o =>
      simp only [List.insertIdx_succ_cons]
      exact ((ih o (by simpa using h)).cons a).trans (List.Perm.swap _ _ _)

theorem perm_cons_eraseIdx (o : List ι) (p : Nat) (h : p < o.length) :
    (o[p] :: o.eraseIdx p).Perm o := by
  induction p generalizing o with
  | zero => cases o with
    | nil => simp at h
    | cons a o => simp
  | succ p ih =>
    cases o with
    | nil => simp at h
    | cons a o =>
      simp only [List.getElem_cons_succ, List.eraseIdx_cons_succ]
      exact (List.Perm.swap _ _ _).trans ((ih o (by simpa using h)).cons a)

/-- What a successful `move` computes. -/
theorem move_ok {o : List ι} {i j : Int} {f t : Nat} (hf : Addresses o.length i f)
    (ht : AddressesGap o.length j t) :
    move o i j = ((o.eraseIdx f).insertIdx (if f < t then t - 1 else t) (o[f]'hf.1), .ok ()) := by
  unfold move
  have hlen : (o.eraseIdx f).length = o.length - 1 := List.length_eraseIdx_of_lt hf.1
  have htl := ht.1
  have hfl := hf.1
  rw [(validateIndex_false_iff _ _ _).2 hf, (validateIndex_true_iff _ _ _).2 ht]
  simp only [popIdx_natCast hf.1]
  split
  · next h =>
    have : ((t : Int) - 1) = ((t - 1 : Nat) : Int) := by omega
    rw [this, insert_natCast (by rw [hlen]; omega)]
  · next h => rw [insert_natCast (by rw [hlen]; omega)]

theorem move_error_of {o : List ι} {i j : Int}
    (h : ¬ ((-(o.length : Int) ≤ i ∧ i < o.length) ∧ (-(o.length : Int) ≤ j ∧ j ≤ o.length))) :
    move o i j = (o, .error .notFound) := by
  unfold move
  cases hv : validateIndex o i false with
  | error e => rw [validateIndex_error _ _ _ _ hv]
  | ok f =>
    dsimp only
    cases hw : validateIndex o j true with
    | error e => rw [validateIndex_error _ _ _ _ hw]
    | ok t =>
      exfalso; apply h
      exact ⟨(addresses_exists_iff _ _).1 ⟨f, (validateIndex_false_iff _ _ _).1 hv⟩,
        (addressesGap_exists_iff _ _).1 ⟨t, (validateIndex_true_iff _ _ _).1 hw⟩⟩

theorem swap_ok {o : List ι} {i j : Int} {a b : Nat} (ha : Addresses o.length i a)
    (hb : Addresses o.length j b) :
    swap o i j = ((o.set a (o[b]'hb.1)).set b (o[a]'ha.1), .ok ()) := by
  unfold swap
  rw [(validateIndex_false_iff _ _ _).2 ha, (validateIndex_false_iff _ _ _).2 hb]
  simp [List.getElem?_eq_getElem ha.1, List.getElem?_eq_getElem hb.1]

theorem swap_error_of {o : List ι} {i j : Int}
    (h : ¬ ((-(o.length : Int) ≤ i ∧ i < o.length) ∧ (-(o.length : Int) ≤ j ∧ j < o.length))) :
    swap o i j = (o, .error .notFound) := by
  unfold swap
  cases hv : validateIndex o i false with
  | error e => rw [validateIndex_error _ _ _ _ hv]
  | ok f =>
    dsimp only
    cases hw : validateIndex o j false with
    | error e => rw [validateIndex_error _ _ _ _ hw]
    | ok t =>
      exfalso; apply h
      exact ⟨(addresses_exists_iff _ _).1 ⟨f, (validateIndex_false_iff _ _ _).1 hv⟩,
        (addresses_exists_iff _ _).1 ⟨t, (validateIndex_false_iff _ _ _).1 hw⟩⟩

theorem swap_perm_aux (o : List ι) (a b : Nat) (ha : a < o.length) (hb : b < o.length) :
    ((o.set a o[b]).set b o[a]).Perm o := by
  rw [List.perm_iff_count]
  intro x
  rw [List.count_set (by simpa using hb), List.count_set ha]
  by_cases hab : a = b
  · subst hab
    have hpos : o[a] = x → 0 < o.count x := fun h => List.count_pos_iff.2 (h ▸ List.getElem_mem ha)
    by_cases h1 : o[a] = x
    · have := hpos h1; simp [h1]; omega
    · simp [h1]
  · have hpa : o[a] = x → 0 < o.count x := fun h => List.count_pos_iff.2 (h ▸ List.getElem_mem ha)
    have hpb : o[b] = x → 0 < o.count x := fun h => List.count_pos_iff.2 (h ▸ List.getElem_mem hb)
    rw [List.getElem_set_ne hab]
    by_cases h1 : o[a] = x <;> by_cases h2 : o[b] = x <;> simp [h1, h2] <;> simp_all <;> omega

/-! ## C01: reordering never loses or duplicates ids -/

/-- C01: `move` keeps every id with its multiplicity, whatever the indices. -/
theorem C01_move_perm (o : List ι) (i j : Int) : (move o i j).1.Perm o := by
  by_cases h : (-(o.length : Int) ≤ i ∧ i < o.length) ∧ (-(o.length : Int) ≤ j ∧ j ≤ o.length)
  · obtain ⟨f, hf⟩ := (addresses_exists_iff _ _).2 h.1
    obtain ⟨t, ht⟩ := (addressesGap_exists_iff _ _).2 h.2
    rw [move_ok hf ht]
    have hlen : (o.eraseIdx f).length = o.length - 1 := List.length_eraseIdx_of_lt hf.1
    have htl := ht.1
    have hfl := hf.1
    refine (insertIdx_perm_cons _ _ ?_ _).trans (perm_cons_eraseIdx o f hf.1)
    rw [hlen]; split <;> omega
  · rw [move_error_of h]

/-- C01: `swap` keeps every id with its multiplicity, whatever the indices. -/
theorem C01_swap_perm (o : List ι) (i j : Int) : (swap o i j).1.Perm o := by
  by_cases h : (-(o.length : Int) ≤ i ∧ i < o.length) ∧ (-(o.length : Int) ≤ j ∧ j < o.length)
  · obtain ⟨a, ha⟩ := (addresses_exists_iff _ _).2 h.1
    obtain ⟨b, hb⟩ := (addresses_exists_iff _ _).2 h.2
    rw [swap_ok ha hb]
    exact swap_perm_aux o a b ha.1 hb.1
  · rw [swap_error_of h]

/-- C01: `reverse` keeps every id with its multiplicity and puts position `k` at `len - 1 - k`. -/
theorem C01_reverse_perm (o : List ι) :
    (reverse o).1.Perm o ∧ (reverse o).2 = .ok () ∧
      ∀ k, k < o.length → (reverse o).1[k]? = o[o.length - 1 - k]? := by
  refine ⟨List.reverse_perm o, rfl, ?_⟩
  intro k hk
  simp only [reverse]
  rw [List.getElem?_reverse hk]

/-- C01: `reverse` twice is the identity. -/
theorem C01_reverse_twice (o : List ι) : (reverse (reverse o).1).1 = o := by
  simp [reverse]

/-- C01: `swap` exchanges exactly the two addressed positions. -/
theorem C01_swap_positions (o : List ι) (i j : Int) (a b : Nat)
    (ha : Addresses o.length i a) (hb : Addresses o.length j b) :
    (swap o i j).2 = .ok () ∧ (swap o i j).1.length = o.length ∧
      (swap o i j).1[a]? = o[b]? ∧ (swap o i j).1[b]? = o[a]? ∧
      ∀ k, k ≠ a → k ≠ b → (swap o i j).1[k]? = o[k]? := by
  rw [swap_ok ha hb]
  have hal := ha.1
  have hbl := hb.1
  refine ⟨rfl, by simp, ?_, ?_, ?_⟩
  · simp only [List.getElem?_set, List.length_set, hal, hbl, if_true]
    by_cases h : b = a
    · subst h; simp [hbl]
    · simp [h, hbl]
  · simp only [List.getElem?_set, List.length_set, hbl, if_true]
    simp [hal]
  · intro k h1 h2
    simp [List.getElem?_set, Ne.symm h1, Ne.symm h2]

/-- C01: `swap` twice with the same indices restores the sequence (whatever the indices). -/
theorem C01_swap_twice (o : List ι) (i j : Int) : (swap (swap o i j).1 i j).1 = o := by
  by_cases h : (-(o.length : Int) ≤ i ∧ i < o.length) ∧ (-(o.length : Int) ≤ j ∧ j < o.length)
  · obtain ⟨a, ha⟩ := (addresses_exists_iff _ _).2 h.1
    obtain ⟨b, hb⟩ := (addresses_exists_iff _ _).2 h.2
    obtain ⟨-, hlen, hA, hB, hO⟩ := C01_swap_positions o i j a b ha hb
    generalize (swap o i j).1 = o' at *
    obtain ⟨-, hlen', hA', hB', hO'⟩ :=
      C01_swap_positions o' i j a b (by rw [hlen]; exact ha) (by rw [hlen]; exact hb)
    apply List.ext_getElem?
    intro k
    by_cases h1 : k = a
    · subst h1; rw [hA', hB]
    · by_cases h2 : k = b
      · subst h2; rw [hB', hA]
      · rw [hO' k h1 h2, hO k h1 h2]
  · rw [swap_error_of h]; simp only; rw [swap_error_of h]

/-- C01: `move(i, j)` takes the addressed id out and puts it back directly before the id that stood at
the addressed target (at the end for target `len`): the final position `d` is the target, minus one when the
source was before it; taking position `d` out of the result gives the original sequence without the
source position, so all other ids keep their relative order. -/
theorem C01_move_positions (o : List ι) (i j : Int) (f t : Nat)
    (hf : Addresses o.length i f) (ht : AddressesGap o.length j t) :
    let d := if f < t then t - 1 else t
    (move o i j).2 = .ok () ∧ (move o i j).1.length = o.length ∧
      (move o i j).1[d]? = o[f]? ∧ (move o i j).1.eraseIdx d = o.eraseIdx f := by
  intro d
  rw [move_ok hf ht]
  have hlen : (o.eraseIdx f).length = o.length - 1 := List.length_eraseIdx_of_lt hf.1
  have htl := ht.1
  have hfl := hf.1
  have hd : d ≤ (o.eraseIdx f).length := by
    rw [hlen]; show (if f < t then t - 1 else t) ≤ _; split <;> omega
  refine ⟨rfl, ?_, ?_, ?_⟩
  · show ((o.eraseIdx f).insertIdx d _).length = _
    rw [List.length_insertIdx_of_le_length hd, hlen]; omega
  · show ((o.eraseIdx f).insertIdx d _)[d]? = _
    rw [List.getElem?_insertIdx_self]; simp [hfl, hlen] at *; omega
  · show ((o.eraseIdx f).insertIdx d _).eraseIdx d = _
    exact List.eraseIdx_insertIdx_self _

/-- Non-vacuity for C01: indices 0 and -1 address positions 0 and 3 of a list with a repeated id,
and `move` from 0 to gap 3 works on it. -/
example : Addresses 4 0 0 ∧ Addresses 4 (-1) 3 ∧ AddressesGap 4 3 3 ∧
    (move [7, 8, 7, 9] 0 3).1 = [8, 7, 7, 9] ∧ (swap [7, 8, 7, 9] 0 (-1)).1 = [9, 8, 7, 7] := by
  refine ⟨by unfold Addresses; omega, by unfold Addresses; omega, by unfold AddressesGap; omega, ?_, ?_⟩ <;> decide

/-! ## C02: index domains -/

/-- C02: `swap` succeeds exactly when both indices are in `[-len, len)`; otherwise it raises
`NotFoundError` and changes nothing. -/
theorem C02_swap_domain (o : List ι) (i j : Int) :
    ((swap o i j).2 = .ok () ↔
      (-(o.length : Int) ≤ i ∧ i < o.length) ∧ (-(o.length : Int) ≤ j ∧ j < o.length)) ∧
    ((swap o i j).2 ≠ .ok () → swap o i j = (o, .error .notFound)) := by
  by_cases h : (-(o.length : Int) ≤ i ∧ i < o.length) ∧ (-(o.length : Int) ≤ j ∧ j < o.length)
  · obtain ⟨a, ha⟩ := (addresses_exists_iff _ _).2 h.1
    obtain ⟨b, hb⟩ := (addresses_exists_iff _ _).2 h.2
    simp [swap_ok ha hb, h]
  · simp [swap_error_of h, h]

/-- C02: `move` succeeds exactly when the source is in `[-len, len)` and the target in `[-len, len]`;
otherwise it raises `NotFoundError` and changes nothing. -/
theorem C02_move_domain (o : List ι) (i j : Int) :
    ((move o i j).2 = .ok () ↔
      (-(o.length : Int) ≤ i ∧ i < o.length) ∧ (-(o.length : Int) ≤ j ∧ j ≤ o.length)) ∧
    ((move o i j).2 ≠ .ok () → move o i j = (o, .error .notFound)) := by
  by_cases h : (-(o.length : Int) ≤ i ∧ i < o.length) ∧ (-(o.length : Int) ≤ j ∧ j ≤ o.length)
  · obtain ⟨a, ha⟩ := (addresses_exists_iff _ _).2 h.1
    obtain ⟨b, hb⟩ := (addressesGap_exists_iff _ _).2 h.2
    simp [move_ok ha hb, h]
  · simp [move_error_of h, h]

/-- C02: a `pop` with an index addressing position `p` returns the id there and removes just that
position, with or without a default. -/
theorem C02_pop_in_range (o : List ι) (i : Int) (p : Nat) (d : Bool) (h : Addresses o.length i p) :
    pop o i d = (o.eraseIdx p, .ok o[p]?) := by
  unfold pop Py.popIdx
  rw [(normIndex_eq_some_iff _ _ _).2 h]
  simp [List.getElem?_eq_getElem h.1]

/-- C02: a `pop` with any other index leaves the sequence unchanged and returns the default, or raises
`NotFoundError` when none was given. -/
theorem C02_pop_out_of_range (o : List ι) (i : Int) (d : Bool)
    (h : ¬ (-(o.length : Int) ≤ i ∧ i < o.length)) :
    pop o i d = (o, if d then .ok none else .error .notFound) := by
  unfold pop Py.popIdx
  rw [(normIndex_eq_none_iff _ _).2 h]
  cases d <;> simp

/-- C02: `popleft` fails exactly on the empty progression (unchanged), else returns the first id. -/
theorem C02_popleft (o : List ι) :
    (o = [] ∧ popleft o = (o, .error .notFound)) ∨
    (∃ x xs, o = x :: xs ∧ popleft o = (xs, .ok x)) := by
  cases o with
  | nil => exact Or.inl ⟨rfl, rfl⟩
  | cons x xs => exact Or.inr ⟨x, xs, rfl, rfl⟩

/-- C02: indexed reading returns the addressed id exactly on `[-len, len)`, `IndexError` elsewhere. -/
theorem C02_getitem (o : List ι) (i : Int) :
    (∀ p, (h : Addresses o.length i p) → getitem o i = .ok (o[p]'h.1)) ∧
    (¬ (-(o.length : Int) ≤ i ∧ i < o.length) → getitem o i = .error .indexError) := by
  constructor
  · intro p h
    unfold getitem Py.getIdx
    rw [(normIndex_eq_some_iff _ _ _).2 h]
    simp [List.getElem?_eq_getElem h.1]
  · intro h
    unfold getitem Py.getIdx
    rw [(normIndex_eq_none_iff _ _).2 h]

/-- C02: indexed assignment replaces exactly the addressed position on `[-len, len)`, and raises
`IndexError` without change elsewhere. -/
theorem C02_setitem (o : List ι) (i : Int) (x : ι) :
    (∀ p, Addresses o.length i p →
      (setitem o i (some x)).2 = .ok () ∧ (setitem o i (some x)).1.length = o.length ∧
      (setitem o i (some x)).1[p]? = some x ∧
      ∀ k, k ≠ p → (setitem o i (some x)).1[k]? = o[k]?) ∧
    (¬ (-(o.length : Int) ≤ i ∧ i < o.length) → setitem o i (some x) = (o, .error .indexError)) := by
  constructor
  · intro p h
    unfold setitem Py.setIdx
    simp only [(normIndex_eq_some_iff _ _ _).2 h]
    have hp := h.1
    refine ⟨trivial, by simp, by simp [hp], ?_⟩
    intro k hk
    rw [List.getElem?_set_ne (Ne.symm hk)]
  · intro h
    unfold setitem Py.setIdx
    simp only [(normIndex_eq_none_iff _ _).2 h]

/-- C02: `insert` never fails for a valid id, whatever the index, and puts the id at the clamped
position: taking that position out again gives the original sequence. -/
theorem C02_insert_clamps (o : List ι) (i : Int) (x : ι) :
    ∃ p, p ≤ o.length ∧
      (0 ≤ i → (p : Int) = min i o.length) ∧ (i < 0 → (p : Int) = max 0 (i + o.length)) ∧
      (insert o i (some x)).2 = .ok () ∧ (insert o i (some x)).1[p]? = some x ∧
      (insert o i (some x)).1.eraseIdx p = o := by
  have key : ∀ p, p ≤ o.length → (o.insertIdx p x)[p]? = some x ∧ (o.insertIdx p x).eraseIdx p = o := by
    intro p hp
    refine ⟨?_, List.eraseIdx_insertIdx_self _⟩
    rw [List.getElem?_insertIdx_self]; simp; omega
  by_cases h1 : i < 0
  · by_cases h2 : i + o.length < 0
    · refine ⟨0, by omega, by omega, by omega, rfl, ?_⟩
      have := key 0 (by omega)
      simpa [insert, Py.insert, h1, h2] using this
    · refine ⟨(i + o.length).toNat, by omega, by omega, by omega, rfl, ?_⟩
      have := key (i + o.length).toNat (by omega)
      simpa [insert, Py.insert, h1, h2] using this
  · by_cases h2 : i > o.length
    · refine ⟨o.length, by omega, by omega, by omega, rfl, ?_⟩
      have := key o.length (by omega)
      simpa [insert, Py.insert, h1, h2] using this
    · refine ⟨i.toNat, by omega, by omega, by omega, rfl, ?_⟩
      have := key i.toNat (by omega)
      simpa [insert, Py.insert, h1, h2] using this

/-- Non-vacuity for C02: index -2 addresses position 1 of three. -/
example : Addresses 3 (-2) 1 ∧ pop [4, 5, 6] (-2) false = ([4, 6], .ok (some 5)) ∧
    pop [4, 5, 6] 3 false = ([4, 5, 6], .error .notFound) := by
  refine ⟨by unfold Addresses; omega, by rfl, by rfl⟩

/-! ## C03: include / exclude -/

/-- C03 (include part, in full): after `include(x)` the id is present, no other multiplicity changed, existing
order is kept, the flag says whether the sequence changed, and a second call is a no-op returning False. -/
theorem C03_include (o : List ι) (x : ι) :
    let r := include_ o (some x)
    x ∈ r.1 ∧ (∀ y, y ≠ x → r.1.count y = o.count y) ∧ o <+: r.1 ∧
      (r.2 = .ok true ∧ r.1 ≠ o ∨ r.2 = .ok false ∧ r.1 = o) ∧
      include_ r.1 (some x) = (r.1, .ok false) := by
  intro r
  by_cases h : x ∈ o
  · have hr : r = (o, .ok false) := by simp [r, include_, h]
    rw [hr]; simp [h, include_]
  · have hr : r = (o ++ [x], .ok true) := by simp [r, include_, h]
    rw [hr]
    refine ⟨by simp, ?_, by simp, Or.inl ⟨rfl, by simp⟩, by simp [include_]⟩
    intro y hy
    simp [List.count_append, List.count_singleton, Ne.symm hy]

/-- C03: what `exclude(x)` does on every progression: it lowers the multiplicity of `x` by one if positive, keeps
every other multiplicity and the relative order, and its flag says whether the sequence changed. -/
theorem C03_exclude_multiplicity (o : List ι) (x : ι) :
    let r := exclude o (some x)
    r.1.count x = o.count x - 1 ∧ (∀ y, y ≠ x → r.1.count y = o.count y) ∧ r.1.Sublist o ∧
      (r.2 = .ok true ∧ r.1 ≠ o ∨ r.2 = .ok false ∧ r.1 = o) := by
  intro r
  by_cases h : x ∈ o
  · have hr : r = (o.erase x, .ok true) := by simp [r, exclude, h]
    rw [hr]
    refine ⟨by simp [List.count_erase], ?_, List.erase_sublist, Or.inl ⟨rfl, ?_⟩⟩
    · intro y hy; simp [List.count_erase, Ne.symm hy]
    · intro heq
      have := congrArg List.length heq
      simp only [List.length_erase_of_mem h] at this
      have := List.length_pos_of_mem h
      omega
  · have hr : r = (o, .ok false) := by simp [r, exclude, h]
    rw [hr]; simp [h, List.count_eq_zero_of_not_mem]

/-- C03 (exclude part), for progressions in which `x` occurs at most once: `x` is gone afterwards and a second
call is a no-op returning False.  Not covered: progressions in which `x` is repeated,
for which it is false (`C03_exclude_limit`). -/
theorem C03_exclude (o : List ι) (x : ι) (h : o.count x ≤ 1) :
    let r := exclude o (some x)
    x ∉ r.1 ∧ exclude r.1 (some x) = (r.1, .ok false) := by
  intro r
  have hnot : x ∉ r.1 := by
    have := (C03_exclude_multiplicity o x).1
    rw [← List.count_eq_zero]
    show (exclude o (some x)).1.count x = 0
    rw [this]; omega
  exact ⟨hnot, by simp [exclude, hnot]⟩

example : (exclude [1, 2, 3] (some 2)).1 = [1, 3] ∧ [1, 2, 3].count 2 ≤ 1 := by decide

/-- Outside the domain of C03: after `exclude(x)` on a progression with a repeated id, `x` is still there and
excluding again changes the progression again. -/
theorem C03_exclude_limit :
    ∃ (o : List Nat) (x : Nat), x ∈ (exclude o (some x)).1 ∧
      (exclude (exclude o (some x)).1 (some x)).2 = .ok true :=
  ⟨[1, 2, 1], 1, by decide⟩

/-- C03: an argument that cannot be coerced to an id changes nothing. -/
theorem C03_bad_argument (o : List ι) :
    include_ o none = (o, .error .valueError) ∧ exclude o none = (o, .error .valueError) := ⟨rfl, rfl⟩

/-! ## C04: failed operations leave the sequence unchanged -/

/-- C04 for every mutating method except `extend`: if the call raises, the sequence is unchanged.
Not covered: `extend`, for which it is false (`C04_extend_limit`). -/
theorem C04_failed_op_unchanged (o : List ι) (op : Op ι) (hne : ∀ rs, op ≠ .extend rs)
    (e : Exc) (h : (step o op).2 = .error e) : (step o op).1 = o := by
  cases op with
  | append r => cases r <;> simp_all [step, append, Except.map]
  | insert i r => cases r <;> simp_all [step, insert, Except.map]
  | remove r =>
    cases r with
    | none => simp_all [step, remove]
    | some x => by_cases hx : x ∈ o <;> simp_all [step, remove, Except.map]
  | pop i d =>
    simp only [step, pop] at *
    split at h <;> cases d <;> simp_all [Except.map]
  | popleft => cases o <;> simp_all [step, popleft, Except.map]
  | clear => simp_all [step, clear, Except.map]
  | extend rs => exact absurd rfl (hne rs)
  | setitem i r =>
    cases r with
    | none => simp_all [step, setitem]
    | some x =>
      simp only [step, setitem] at *
      split at h <;> simp_all [Except.map]
  | setslice s vs =>
    cases vs with
    | none => simp_all [step, setslice]
    | some rs =>
      simp only [step, setslice] at *
      split at h
      · simp_all
      · split at h <;> simp_all [Except.map]
  | move i j =>
    have hc := (C02_move_domain o i j).2
    by_cases hm : (move o i j).2 = .ok ()
    · simp [step, hm, Except.map] at h
    · simp [step, hc hm]
  | swap i j =>
    have hc := (C02_swap_domain o i j).2
    by_cases hm : (swap o i j).2 = .ok ()
    · simp [step, hm, Except.map] at h
    · simp [step, hc hm]
  | reverse => simp_all [step, reverse, Except.map]
  | include_ r =>
    cases r with
    | none => simp_all [step, include_]
    | some x => by_cases hx : x ∈ o <;> simp_all [step, include_, Except.map]
  | exclude r =>
    cases r with
    | none => simp_all [step, exclude]
    | some x => by_cases hx : x ∈ o <;> simp_all [step, exclude, Except.map]

/-- Non-vacuity: removing an absent id fails. -/
example : (step [1, 2] (.remove (some 3))).2 = .error .valueError := by rfl

/-- C04: `extend` appends exactly the coercible prefix, and fails exactly when some item is not coercible. -/
theorem C04_extend_exact (o : List ι) (rs : List (Ref ι)) :
    (extend o rs).1 = o ++ (rs.takeWhile Option.isSome).filterMap id ∧
      ((extend o rs).2 = .ok () ↔ none ∉ rs) := by
  induction rs generalizing o with
  | nil => simp [extend]
  | cons r rs ih =>
    cases r with
    | none => simp [extend]
    | some x =>
      simp only [extend]
      have := ih (o ++ [x])
      simp_all

/-- Outside the domain of C04: a failing `extend` keeps the items before the failing one. -/
theorem C04_extend_limit :
    ∃ (o : List Nat) (rs : List (Ref Nat)) (e : Exc),
      (extend o rs).2 = .error e ∧ (extend o rs).1 ≠ o :=
  ⟨[1], [some 2, none], .valueError, by decide⟩

end Verif.Progression
