import Verif.Props.Progression
import Verif.Spec.Slice

/-!
# Properties C219 and C220: what every `Progression` call returns, and `extend` with a progression
-/

set_option linter.unusedSectionVars false
set_option linter.unusedSimpArgs false
set_option linter.unusedVariables false

namespace Verif.Progression

variable {ι : Type} [DecidableEq ι]

/-! ## Specification vocabulary -/

/-- `p` is the first position of `x` in `o`. -/
def FirstAt (o : List ι) (x : ι) (p : Nat) : Prop :=
  o[p]? = some x ∧ ∀ q, q < p → o[q]? ≠ some x

/-- `o'` is `o` with the values `vs` put, in order, at the positions `ps`, everything else unchanged. -/
def Stored (o : List ι) (ps : List Nat) (vs o' : List ι) : Prop :=
  o'.length = o.length ∧ (∀ p, p ∉ ps → o'[p]? = o[p]?) ∧ ps.map (fun p => o'[p]?) = vs.map some

/-- `o'` is the sequence after `p[s] = vs`: with step 1 the range from the start of the slice to its end (nothing,
if the end lies before the start) is replaced by the values, whatever their number; with another step every picked
position gets its value. -/
def Assigned (o : List ι) (s : Py.Slice) (vs o' : List ι) : Prop :=
  (s.step.getD 1 = 1 → ∃ a b : Nat, Py.StartsAt s o.length 1 a ∧
      (∃ e : Int, Py.StopsAt s o.length 1 e ∧ (b : Int) = max (a : Int) e) ∧ o' = o.take a ++ vs ++ o.drop b) ∧
  (s.step.getD 1 ≠ 1 → ∃ ps, Py.Picks s o.length ps ∧ ps.length = vs.length ∧ Stored o ps vs o')

/-! ## Lemmas -/

theorem coerceAll_eq_some (rs : List (Ref ι)) (l : List ι) : coerceAll rs = some l ↔ rs = l.map some := by
  induction rs generalizing l with
  | nil => cases l <;> simp [coerceAll]
  | cons r rs ih =>
    cases r with
    | none => cases l <;> simp [coerceAll]
    | some x =>
      simp only [coerceAll, Option.map_eq_some_iff]
      cases l with
      | nil => simp
      | cons y l =>
        simp only [List.map_cons, List.cons.injEq, Option.some.injEq]
        constructor
        · rintro ⟨a, ha, rfl, rfl⟩
          exact ⟨rfl, (ih a).1 ha⟩
        · rintro ⟨rfl, h⟩
          exact ⟨l, (ih l).2 h, rfl, rfl⟩

theorem coerceAll_eq_none (rs : List (Ref ι)) : coerceAll rs = none ↔ none ∈ rs := by
  induction rs with
  | nil => simp [coerceAll]
  | cons r rs ih => cases r <;> simp [coerceAll, ih]

theorem foldl_set_stored (ps : List Nat) (vs o : List ι) (hnd : ps.Nodup) (hlt : ∀ p ∈ ps, p < o.length)
    (hlen : ps.length = vs.length) :
    Stored o ps vs ((ps.zip vs).foldl (fun acc pv => acc.set pv.1 pv.2) o) := by
  induction ps generalizing vs o with
  | nil => cases vs with
    | nil => simp [Stored]
    | cons v vs => simp at hlen
  | cons p ps ih => cases vs with
    | nil => simp at hlen
    | cons v vs =>
      rw [List.nodup_cons] at hnd
      simp only [List.zip_cons_cons, List.foldl_cons]
      obtain ⟨h1, h2, h3⟩ := ih vs (o.set p v) hnd.2 (fun q hq => by simpa using hlt q (by simp [hq]))
        (by simpa using hlen)
      have hp := hlt p (by simp)
      refine ⟨by simpa using h1, ?_, ?_⟩
      · intro q hq
        rw [List.mem_cons] at hq
        rw [h2 q (fun h => hq (Or.inr h)), List.getElem?_set_ne (fun h => hq (Or.inl h.symm))]
      · rw [List.map_cons, List.map_cons, h3, h2 p hnd.1, List.getElem?_set_self hp]

theorem stored_unique {ps : List Nat} {vs o o1 o2 : List ι} (h1 : Stored o ps vs o1) (h2 : Stored o ps vs o2) :
    o1 = o2 := by
  apply List.ext_getElem?
  intro p
  by_cases hp : p ∈ ps
  · have := h1.2.2.trans h2.2.2.symm
    exact (List.map_inj_left.1 this) p hp
  · rw [h1.2.1 p hp, h2.2.1 p hp]

theorem picks_nodup {s : Py.Slice} {n : Nat} {ps : List Nat} (hk : s.step ≠ some 0) (h : Py.Picks s n ps) :
    ps.Nodup := by
  obtain ⟨a, b, k, hkk, ha, hb, hm, hp, hn⟩ := h
  have hk0 : k ≠ 0 := by
    intro h0
    rw [h0] at hkk
    cases hs : s.step with
    | none => rw [hs] at hkk; simp at hkk
    | some v => rw [hs] at hkk; simp at hkk; exact hk (by rw [hs, ← hkk])
  rcases Int.lt_or_gt_of_ne hk0 with h0 | h0
  · exact (hn h0).imp (fun h => by omega)
  · exact (hp h0).imp (fun h => by omega)

theorem step_zero_iff (s : Py.Slice) : s.step.getD 1 = 0 ↔ s.step = some 0 := by
  cases hs : s.step <;> simp

theorem setSlice_iff (o : List ι) (s : Py.Slice) (vs o' : List ι) :
    Py.setSlice o s vs = some o' ↔ s.step ≠ some 0 ∧ Assigned o s vs o' := by
  unfold Py.setSlice Assigned
  by_cases h0 : s.step.getD 1 = 0
  · simp [h0, (step_zero_iff s).1 h0]
  have h0' : s.step ≠ some 0 := fun h => h0 ((step_zero_iff s).2 h)
  simp only [h0, if_false, ne_eq, h0', not_false_eq_true, true_and]
  by_cases h1 : s.step.getD 1 = 1
  · simp only [h1, if_true, Option.some.injEq, forall_const, not_true_eq_false, false_implies, and_true]
    have ha := Py.startsAt_adjust s o.length 1
    have hb := Py.stopsAt_adjust s o.length 1
    generalize (s.adjust o.length 1).1 = a at *
    generalize (s.adjust o.length 1).2 = e at *
    have ha0 := (ha.bounds (by decide)).1 (by decide)
    constructor
    · rintro rfl
      refine ⟨a.toNat, (if e < a then a else e).toNat, ?_, ⟨e, hb, ?_⟩, rfl⟩
      · rw [Int.toNat_of_nonneg ha0]; exact ha
      · split <;> omega
    · rintro ⟨a', b', ha', ⟨e', hb', hm⟩, rfl⟩
      have ea := ha.unique ha'
      have ee := hb.unique hb'
      subst ea ee
      have : (if e < (a' : Int) then (a' : Int) else e).toNat = b' := by split <;> omega
      rw [this]; simp
  · simp only [h1, if_false, not_false_eq_true, forall_const, false_implies, true_and]
    cases hps : s.positions o.length with
    | none => exact absurd ((Py.positions_none s _).1 hps) h0'
    | some ps =>
      have hpk := Py.positions_picks hps
      have hst := foldl_set_stored ps vs o (picks_nodup h0' hpk) (Py.picks_lt h0' hpk)
      by_cases hl : ps.length = vs.length
      · simp only [hl, if_true, Option.some.injEq]
        constructor
        · rintro rfl
          exact ⟨ps, hpk, hl, hst hl⟩
        · rintro ⟨qs, hq, hql, hs⟩
          have e := Py.Picks.unique h0' hpk hq
          subst e
          exact stored_unique (hst hl) hs
      · simp only [hl, if_false, reduceCtorEq, false_iff]
        rintro ⟨qs, hq, hql, hs⟩
        have e := Py.Picks.unique h0' hpk hq
        subst e
        exact hl hql

/-! ## C219 -/

/-- C219 (construction): `Progression(order=items)` holds the ids of the items, in order; one item without an id is
refused as `ValueError`. -/
theorem C219_construct (rs : List (Ref ι)) :
    (∀ l, mk rs = .ok l ↔ rs = l.map some) ∧ (mk rs = .error .valueError ↔ none ∈ rs) := by
  unfold mk
  constructor
  · intro l
    rw [← coerceAll_eq_some]
    cases coerceAll rs <;> simp
  · rw [← coerceAll_eq_none]
    cases coerceAll rs <;> simp

/-- C219 (adding): `append` adds at the end and `extend` adds all items in order. -/
theorem C219_add (o : List ι) (x : ι) (l : List ι) :
    append o (some x) = (o ++ [x], .ok ()) ∧ extend o (l.map some) = (o ++ l, .ok ()) := by
  refine ⟨rfl, ?_⟩
  induction l generalizing o with
  | nil => simp [extend]
  | cons y l ih => simp only [List.map_cons, extend]; rw [ih]; simp

/-- C219 (removing): `remove` deletes the first occurrence, and fails with `ValueError` exactly if there is none. -/
theorem C219_remove (o : List ι) (x : ι) :
    (∀ p, FirstAt o x p → remove o (some x) = (o.eraseIdx p, .ok ())) ∧
    (x ∉ o → remove o (some x) = (o, .error .valueError)) := by
  constructor
  · rintro p ⟨hp, hq⟩
    have hm : x ∈ o := List.mem_of_getElem? hp
    simp only [remove, hm, if_true, Prod.mk.injEq, and_true]
    clear hm
    induction o generalizing p with
    | nil => simp at hp
    | cons y o ih =>
      cases p with
      | zero =>
        simp only [List.getElem?_cons_zero, Option.some.injEq] at hp
        simp [hp]
      | succ p =>
        have h0 := hq 0 (by omega)
        simp only [List.getElem?_cons_zero, ne_eq, Option.some.injEq] at h0
        rw [List.erase_cons_tail (by simpa using h0), List.eraseIdx_cons_succ]
        congr 1
        refine ih p (by simpa using hp) ?_
        intro q hlt
        have := hq (q + 1) (by omega)
        simpa using this
  · intro h
    simp [remove, h]

/-- C219 (queries): membership is occurrence, `index` is the first position of the id, and it fails with
`ValueError` exactly for an absent id. -/
theorem C219_query (o : List ι) (x : ι) :
    (contains o (some x) = true ↔ x ∈ o) ∧ (∀ p, index o (some x) = .ok p ↔ FirstAt o x p) ∧
    (index o (some x) = .error .valueError ↔ x ∉ o) := by
  refine ⟨by simp [contains], ?_, ?_⟩
  · intro p
    by_cases h : x ∈ o
    · simp only [index, h, if_true, Except.ok.injEq]
      have hl := List.idxOf_lt_length_of_mem h
      constructor
      · rintro rfl
        refine ⟨by rw [List.getElem?_eq_getElem hl, List.getElem_idxOf hl], ?_⟩
        intro q hq he
        have hql : q < o.length := by omega
        rw [List.getElem?_eq_getElem hql, Option.some.injEq] at he
        have := List.not_of_lt_findIdx (p := (· == x)) (xs := o) (i := q) (by simpa [List.idxOf] using hq)
        simp [he] at this
      · rintro ⟨hp, hq⟩
        have h1 : o[o.idxOf x]? = some x := by rw [List.getElem?_eq_getElem hl, List.getElem_idxOf hl]
        rcases Nat.lt_trichotomy (o.idxOf x) p with hlt | he | hgt
        · exact absurd h1 (hq _ hlt)
        · exact he
        · have hpl : p < o.length := by omega
          rw [List.getElem?_eq_getElem hpl, Option.some.injEq] at hp
          have := List.not_of_lt_findIdx (p := (· == x)) (xs := o) (i := p) (by simpa [List.idxOf] using hgt)
          simp [hp] at this
    · simp only [index, h, if_false, reduceCtorEq, false_iff]
      intro hp
      exact h (List.mem_of_getElem? hp.1)
  · by_cases h : x ∈ o <;> simp [index, h]

/-- C219 (bad items): an item that has no id is in no progression, and every other call given one raises
`ValueError` and changes nothing (`extend`: the items before it are kept, C04). -/
theorem C219_bad_item (o : List ι) (i : Int) :
    contains o none = false ∧ index o none = .error .valueError ∧ append o none = (o, .error .valueError) ∧
    insert o i none = (o, .error .valueError) ∧ remove o none = (o, .error .valueError) ∧
    setitem o i none = (o, .error .valueError) ∧
    ∀ rs, none ∈ rs → (extend o rs).2 = .error .valueError := by
  refine ⟨rfl, rfl, rfl, rfl, rfl, rfl, ?_⟩
  intro rs
  induction rs generalizing o with
  | nil => simp
  | cons r rs ih =>
    cases r with
    | none => intro _; rfl
    | some x => intro h; exact ih (o ++ [x]) (by simpa using h)

/-- C219 (reading slices): `p[s]` is the list of the ids at the positions picked by the slice, in its order; it
fails, with `ValueError`, exactly for a step of zero. -/
theorem C219_read_slice (o : List ι) (s : Py.Slice) :
    (∀ xs, getslice o s = .ok xs ↔
      s.step ≠ some 0 ∧ ∃ ps, Py.Picks s o.length ps ∧ xs.map some = ps.map (fun p => o[p]?)) ∧
    (s.step ≠ some 0 → ∃ xs, getslice o s = .ok xs) ∧
    (s.step = some 0 → getslice o s = .error .valueError) := by
  unfold getslice
  refine ⟨?_, ?_, ?_⟩
  · intro xs
    rw [← Py.getSlice_iff]
    cases Py.getSlice o s <;> simp
  · intro h
    unfold Py.getSlice
    cases hp : s.positions o.length with
    | none => exact absurd ((Py.positions_none s _).1 hp) h
    | some ps => exact ⟨_, rfl⟩
  · intro h
    unfold Py.getSlice
    rw [(Py.positions_none s _).2 h]; rfl

/-- C219 (writing slices): `p[s] = items` stores the ids of the items as a list assignment does, and otherwise
raises and changes nothing: `TypeError` if the value is not a list, `ValueError` if an item has no id, the step is
zero, or an extended slice gets the wrong number of items. -/
theorem C219_write_slice (o : List ι) (s : Py.Slice) (vs : Option (List (Ref ι))) :
    (∀ o', setslice o s vs = (o', .ok ()) ↔
      s.step ≠ some 0 ∧ ∃ l, vs = some (l.map some) ∧ Assigned o s l o') ∧
    ((∃ o', setslice o s vs = (o', .ok ())) ∨
      (vs = none ∧ setslice o s vs = (o, .error .typeError)) ∨
      (vs ≠ none ∧ setslice o s vs = (o, .error .valueError))) := by
  cases vs with
  | none => simp [setslice]
  | some rs =>
    simp only [setslice, Option.some.injEq, ne_eq, reduceCtorEq, not_false_eq_true, false_and, true_and, false_or]
    cases hc : coerceAll rs with
    | none =>
      refine ⟨?_, Or.inr rfl⟩
      intro o'
      simp only [Prod.mk.injEq, reduceCtorEq, and_false, false_iff]
      rintro ⟨-, l, hl, -⟩
      rw [(coerceAll_eq_some rs l).2 hl] at hc
      cases hc
    | some xs =>
      have hrs := (coerceAll_eq_some rs xs).1 hc
      dsimp only
      refine ⟨?_, ?_⟩
      · intro o'
        have key : (∃ l, rs = l.map some ∧ Assigned o s l o') ↔ Assigned o s xs o' := by
          constructor
          · rintro ⟨l, hl, ha⟩
            rw [(coerceAll_eq_some rs l).2 hl, Option.some.injEq] at hc
            rw [← hc]; exact ha
          · intro ha; exact ⟨xs, hrs, ha⟩
        rw [key]
        have := setSlice_iff o s xs o'
        rw [ne_eq] at this
        rw [← this]
        cases Py.setSlice o s xs <;> simp
      · cases Py.setSlice o s xs with
        | none => exact Or.inr rfl
        | some o' => exact Or.inl ⟨o', rfl⟩

/-- Non-vacuity: a negative step, an open slice, a growing assignment and an extended one. -/
example : getslice [1, 2, 3, 4, 5] { start := some (-1), step := some (-2) } = .ok [5, 3, 1] ∧
    getslice [1, 2, 3, 4, 5] { start := some 3 } = .ok [4, 5] ∧
    setslice [1, 2, 3] { start := some 1, stop := some 2 } (some [some 7, some 8]) = ([1, 7, 8, 3], .ok ()) ∧
    setslice [1, 2, 3] { step := some 2 } (some [some 7, some 8]) = ([7, 2, 8], .ok ()) ∧
    setslice [1, 2, 3] { step := some 2 } (some [some 7]) = ([1, 2, 3], .error .valueError) ∧
    FirstAt [3, 1, 2, 1] 1 1 := by
  refine ⟨by rfl, by rfl, by rfl, by rfl, by rfl, by rfl, ?_⟩
  intro q hq
  have : q = 0 := by omega
  subst this; decide

/-! ## C220: extending a progression by a progression -/

theorem extendRun_other (q o : List ι) (k n : Nat) (hk : k ≤ q.length) (hn : q.length - k < n) :
    extendRun (some q) n ⟨o, k⟩ = .inr (o ++ q.drop k) := by
  induction n generalizing o k with
  | zero => omega
  | succ n ih =>
    simp only [extendRun, extendRound, Option.getD_some]
    by_cases hlt : k < q.length
    · rw [List.getElem?_eq_getElem hlt]
      simp only [Option.map_some]
      rw [ih (o ++ [q[k]]) (k + 1) (by omega) (by omega)]
      rw [List.append_assoc, List.singleton_append, ← List.drop_eq_getElem_cons hlt]
    · rw [List.getElem?_eq_none (by omega)]
      simp only [Option.map_none]
      rw [List.drop_eq_nil_of_le (by omega), List.append_nil]

/-- C220: `p.extend(q)` for another progression `q` returns, with the ids of `q` added in order; `p.extend(p)` for an
empty `p` returns at once.  Not covered: `p.extend(p)` for a progression that is not empty
(`C220_violation`). -/
theorem C220_other_partial (o q : List ι) :
    (∃ n, extendRun (some q) n ⟨o, 0⟩ = .inr (o ++ q)) ∧
    (∃ n, extendRun none n (⟨[], 0⟩ : Loop ι) = .inr []) := by
  refine ⟨⟨q.length + 1, ?_⟩, ⟨1, rfl⟩⟩
  have := extendRun_other q o 0 (q.length + 1) (by omega) (by omega)
  simpa using this

theorem extendRun_self (o : List ι) (k n : Nat) (hk : k < o.length) :
    ∃ o', extendRun none n ⟨o, k⟩ = .inl ⟨o', k + n⟩ ∧ o'.length = o.length + n ∧ o <+: o' := by
  induction n generalizing o k with
  | zero => exact ⟨o, rfl, rfl, List.prefix_refl o⟩
  | succ n ih =>
    simp only [extendRun, extendRound, Option.getD_none]
    rw [List.getElem?_eq_getElem hk]
    simp only [Option.map_some]
    obtain ⟨o', h1, h2, h3⟩ := ih (o ++ [o[k]]) (k + 1) (by simp; omega)
    refine ⟨o', ?_, ?_, (List.prefix_append _ _).trans h3⟩
    · rw [h1]; congr 2; omega
    · simp at h2; omega

/-- C220 is false: `p.extend(p)` on a progression that is not empty never returns; the iterator reads the list that
the call is appending to, and after every number of rounds the call is still running with one more id per round. -/
theorem C220_violation (o : List ι) (h : o ≠ []) (n : Nat) :
    ∃ o', extendRun none n ⟨o, 0⟩ = .inl ⟨o', n⟩ ∧ o'.length = o.length + n := by
  have hl : 0 < o.length := List.length_pos_iff.2 h
  obtain ⟨o', h1, h2, -⟩ := extendRun_self o 0 n hl
  exact ⟨o', by rw [h1]; simp, h2⟩

example : extendRun (some [4, 5]) 3 ⟨[1, 2], 0⟩ = .inr [1, 2, 4, 5] ∧
    extendRun none 3 ⟨[1, 2], 0⟩ = .inl ⟨[1, 2, 1, 2, 1], 3⟩ := by decide

end Verif.Progression
