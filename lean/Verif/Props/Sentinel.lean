import Verif.Model.Sentinel

/-!
# C171-C173: sentinels and singletons
-/

set_option linter.unusedSectionVars false
set_option linter.unusedSimpArgs false
set_option linter.unusedVariables false

namespace Verif.Sentinel

/-! ### C171 -/

/-- The value equals one of the empty values. -/
def IsEmpty (v : Obj) : Prop := Except.ok true ∈ v.eqs

/-- Comparison with the empty values gives a truth value. -/
def Comparable (v : Obj) : Prop := ∀ r ∈ v.eqs, ∃ b, r = .ok b

/-- C171: `is_sentinel` answers for every value. This fails with `empty_as_sentinel=True` for values whose comparison has no truth value, such as arrays. -/
theorem C171_limit : isSentinel ⟨false, false, false, [.error .valueError]⟩ false true = .error .valueError := by decide

theorem isIn_ok : ∀ (l : List (Except Exc Bool)), (∀ r ∈ l, ∃ b, r = .ok b) → ∃ b, isIn l = .ok b ∧ (b = true ↔ Except.ok true ∈ l)
  | [], _ => ⟨false, rfl, by simp⟩
  | r :: l, h => by
    obtain ⟨b, rfl⟩ := h r List.mem_cons_self
    obtain ⟨b', h1, h2⟩ := isIn_ok l (fun x hx => h x (List.mem_cons_of_mem _ hx))
    cases b
    · exact ⟨b', by simp [isIn, h1], by simp [h2]⟩
    · exact ⟨true, by simp [isIn], by simp⟩

/-- C171: except for values that cannot be compared when empty values count, `is_sentinel` never raises and is true exactly for `Undefined` and `Unset`, for `None` if asked, and for empty values if asked; without `empty_as_sentinel` it never raises for any value; `not_sentinel` is its negation. -/
theorem C171_is_sentinel (v : Obj) (noneAs emptyAs : Bool) (hc : emptyAs = true → Comparable v) :
    ∃ b, isSentinel v noneAs emptyAs = .ok b ∧ notSentinel v noneAs emptyAs = .ok (!b) ∧
      (b = true ↔ v.isUndefined = true ∨ v.isUnset = true ∨ (noneAs = true ∧ v.isNone = true) ∨ (emptyAs = true ∧ IsEmpty v)) := by
  have key : ∃ b, isSentinel v noneAs emptyAs = .ok b ∧
      (b = true ↔ v.isUndefined = true ∨ v.isUnset = true ∨ (noneAs = true ∧ v.isNone = true) ∨ (emptyAs = true ∧ IsEmpty v)) := by
    unfold isSentinel
    by_cases hn : (noneAs && v.isNone) = true
    · rw [if_pos hn]
      simp only [Bool.and_eq_true] at hn
      exact ⟨true, rfl, by simp [hn]⟩
    · rw [if_neg hn]
      simp only [Bool.and_eq_true] at hn
      cases emptyAs with
      | false => exact ⟨v.plain, rfl, by simp [Obj.plain, hn]⟩
      | true =>
        obtain ⟨b, hb, hb'⟩ := isIn_ok v.eqs (hc rfl)
        simp only [if_true, hb]
        cases b
        · refine ⟨v.plain, rfl, ?_⟩
          have : ¬ IsEmpty v := fun h => by simpa using hb'.2 h
          simp [Obj.plain, hn, this]
        · exact ⟨true, rfl, by simp [IsEmpty, hb'.1 rfl]⟩
  obtain ⟨b, h1, h2⟩ := key
  exact ⟨b, h1, by simp [notSentinel, h1], h2⟩

/-- An empty list, a number, `None`. -/
example : isSentinel ⟨false, false, false, [.ok false, .ok false, .ok false, .ok false, .ok true, .ok false]⟩ false true = .ok true ∧
    isSentinel ⟨false, false, false, [.ok false, .ok false, .ok false, .ok false, .ok false, .ok false]⟩ true true = .ok false ∧
    isSentinel ⟨true, false, false, []⟩ true false = .ok true := by decide

/-- The comparisons come to `r`: all before it are false, and it is the first that is not. -/
def FirstAnswer (l : List (Except Exc Bool)) (r : Except Exc Bool) : Prop :=
  ∃ before after, l = before ++ r :: after ∧ (∀ x ∈ before, x = .ok false) ∧ r ≠ .ok false

theorem isIn_iff : ∀ (l : List (Except Exc Bool)) (r : Except Exc Bool), r ≠ .ok false → (isIn l = r ↔ FirstAnswer l r)
  | [], r, hr => by
    constructor
    · intro h; exact absurd h.symm hr
    · rintro ⟨b, a, h, _⟩; cases b <;> cases h
  | x :: l, r, hr => by
    have hne : x ≠ .ok false → (FirstAnswer (x :: l) r ↔ x = r) := by
      intro hx
      constructor
      · rintro ⟨b, a, h, hb, _⟩
        cases b with
        | nil => exact (List.cons.inj h).1
        | cons y b => exact absurd ((List.cons.inj h).1.trans (hb y List.mem_cons_self)) hx
      · rintro rfl; exact ⟨[], l, rfl, by simp, hr⟩
    match x, hne with
    | .error e, hne => rw [hne (by simp)]; rfl
    | .ok true, hne => rw [hne (by simp)]; rfl
    | .ok false, _ =>
      simp only [isIn]
      rw [isIn_iff l r hr]
      constructor
      · rintro ⟨b, a, h, hb, _⟩
        refine ⟨.ok false :: b, a, by rw [h]; rfl, ?_, hr⟩
        intro y hy
        rcases List.mem_cons.1 hy with rfl | hy
        · rfl
        · exact hb y hy
      · rintro ⟨b, a, h, hb, _⟩
        cases b with
        | nil => exact absurd (List.cons.inj h).1.symm hr
        | cons y b => exact ⟨b, a, (List.cons.inj h).2, fun z hz => hb z (List.mem_cons_of_mem _ hz), hr⟩

/-- C171: the exact outcome for every value, also one that cannot be compared: it raises exactly if empty values count, `None` has not decided, and the first
comparison that is not false raises. -/
theorem C171_raises (v : Obj) (noneAs emptyAs : Bool) (e : Exc) :
    (isSentinel v noneAs emptyAs = .error e ↔ emptyAs = true ∧ ¬(noneAs = true ∧ v.isNone = true) ∧ FirstAnswer v.eqs (.error e)) ∧
    (notSentinel v noneAs emptyAs = .error e ↔ isSentinel v noneAs emptyAs = .error e) := by
  refine ⟨?_, ?_⟩
  · rw [← isIn_iff v.eqs (.error e) (by simp)]
    unfold isSentinel
    by_cases hn : noneAs = true ∧ v.isNone = true
    · simp [hn]
    · rw [if_neg (by simpa using hn)]
      cases emptyAs with
      | false => simp
      | true =>
        simp only [if_true, true_and]
        match h : isIn v.eqs with
        | .error e' => simp [hn]
        | .ok true => simp
        | .ok false => simp
  · unfold notSentinel
    cases isSentinel v noneAs emptyAs <;> simp

/-- C171: when empty values count and one of them equals the value, comparisons after it are not made. -/
theorem C171_first (v : Obj) (noneAs : Bool) (h : FirstAnswer v.eqs (.ok true)) : isSentinel v noneAs true = .ok true := by
  have h1 := (isIn_iff v.eqs (.ok true) (by simp)).2 h
  unfold isSentinel
  split
  · rfl
  · simp [h1]

example : FirstAnswer [.ok false, .error .valueError, .ok true] (.error .valueError) := ⟨[.ok false], [.ok true], rfl, by simp, by simp⟩

/-! ### C172 -/

/-- No thread is in the middle of creating an instance of the class, the cache holds `o`, and all results so far are `o`. -/
def Settled (c o : Nat) (s : State) : Prop :=
  s.cache.get? c = some o ∧ (∀ t pc, s.threads.get? t = some pc → pc ≠ .create c ∧ ∀ x, pc ≠ .store c x) ∧ ∀ x, (c, x) ∈ s.results → x = o

theorem settled_act (c o : Nat) (s : State) (hw : s.threads.WF) (h : Settled c o s) (a : Act) : Settled c o (act s a) ∧ (act s a).threads.WF := by
  obtain ⟨h1, h2, h3⟩ := h
  have hmem : c ∈ s.cache.keys := (Dict.get?_isSome_iff _ _).1 (by rw [h1]; rfl)
  have setOk : ∀ (t : Nat) (pc : Pc), (pc ≠ .create c ∧ ∀ x, pc ≠ .store c x) →
      ∀ t' pc', (s.threads.set t pc).get? t' = some pc' → pc' ≠ .create c ∧ ∀ x, pc' ≠ .store c x := by
    intro t pc hpc t' pc' hg
    rw [Dict.get?_set] at hg
    split at hg
    · injection hg with hg; rw [← hg]; exact hpc
    · exact h2 t' pc' hg
  have delOk : ∀ t t' pc', (s.threads.del t).get? t' = some pc' → pc' ≠ .create c ∧ ∀ x, pc' ≠ .store c x := by
    intro t t' pc' hg
    rw [Dict.get?_del hw] at hg
    split at hg
    · cases hg
    · exact h2 t' pc' hg
  cases a with
  | call t c' =>
    simp only [act]
    split
    · exact ⟨⟨h1, h2, h3⟩, hw⟩
    · exact ⟨⟨h1, setOk t _ (by simp), h3⟩, Dict.set_wf hw _ _⟩
  | copy c' o' =>
    simp only [act]
    split
    · rename_i hm
      refine ⟨⟨h1, h2, ?_⟩, hw⟩
      intro x hx
      simp only [List.mem_append, List.mem_singleton, Prod.mk.injEq] at hx
      rcases hx with hx | ⟨rfl, rfl⟩
      · exact h3 x hx
      · exact h3 x hm
    · exact ⟨⟨h1, h2, h3⟩, hw⟩
  | step t =>
    simp only [act]
    cases hg : s.threads.get? t with
    | none => exact ⟨⟨h1, h2, h3⟩, hw⟩
    | some pc =>
      have hpc := h2 t pc hg
      cases pc with
      | check c' =>
        simp only [stepPc]
        refine ⟨⟨h1, setOk t _ ?_, h3⟩, Dict.set_wf hw _ _⟩
        split
        · simp
        · rename_i hne
          refine ⟨?_, by simp⟩
          intro e
          injection e with e
          subst e
          exact hne hmem
      | create c' =>
        simp only [stepPc]
        refine ⟨⟨h1, setOk t _ ⟨by simp, ?_⟩, h3⟩, Dict.set_wf hw _ _⟩
        intro x e
        injection e with e1 _
        subst e1
        exact hpc.1 rfl
      | store c' o' =>
        simp only [stepPc]
        refine ⟨⟨?_, setOk t _ (by simp), h3⟩, Dict.set_wf hw _ _⟩
        have : c' ≠ c := by rintro rfl; exact hpc.2 o' rfl
        rw [Dict.get?_set, if_neg this]
        exact h1
      | fetch c' =>
        simp only [stepPc]
        cases hc : s.cache.get? c' with
        | none => exact ⟨⟨h1, delOk t, h3⟩, Dict.del_wf hw _⟩
        | some o' =>
          refine ⟨⟨h1, delOk t, ?_⟩, Dict.del_wf hw _⟩
          intro x hx
          simp only [List.mem_append, List.mem_singleton, Prod.mk.injEq] at hx
          rcases hx with hx | ⟨rfl, rfl⟩
          · exact h3 x hx
          · rw [h1] at hc; exact (Option.some.inj hc).symm

/-- The first call of a class alone, as at import of the module (`Undefined = UndefinedType()`). -/
def alone (t c : Nat) : List Act := [.call t c, .step t, .step t, .step t, .step t]

theorem alone_start (t c : Nat) : run start (alone t c) = ⟨[(c, 0)], 1, [], [(c, 0)]⟩ := by
  simp [run, alone, act, start, stepPc, Dict.keys, Dict.get?, Dict.set, Dict.del]

/-- C172: once the first call of its class has returned (for `Undefined` and `Unset`: at import), every call of the class, copy, deep copy and unpickling gives the same object, in any number of threads under every schedule. -/
theorem C172_one_object (s0 : State) (hw : s0.threads.WF) (c o : Nat) (h0 : s0.cache.get? c = some o) (hr : ∀ x, (c, x) ∈ s0.results → x = o)
    (hq : s0.threads = []) (as : List Act) : ∀ x, (c, x) ∈ (run s0 as).results → x = o := by
  have key : ∀ (as : List Act) (s : State), s.threads.WF → Settled c o s → Settled c o (run s as) := by
    intro as
    induction as with
    | nil => intro s _ h; exact h
    | cons a as ih =>
      intro s hw h
      obtain ⟨h1, h2⟩ := settled_act c o s hw h a
      exact ih (act s a) h2 h1
  exact (key as s0 hw ⟨h0, by rw [hq]; simp [Dict.get?], hr⟩).2.2

/-- The state after the import of the module. -/
example (as : List Act) : ∀ x, (7, x) ∈ (run (run start (alone 0 7)) as).results → x = 0 := by
  rw [alone_start]
  exact C172_one_object _ (by simp [Dict.WF, Dict.keys]) 7 0 (by simp [Dict.get?]) (by simp) rfl as

example : (run (run start (alone 0 7)) [.call 1 7, .call 2 7, .step 2, .step 1, .copy 7 0, .step 1, .step 2]).results = [(7, 0), (7, 0), (7, 0), (7, 0)] := by decide

/-! ### C173 -/

/-- C173: a class made with `SingletonType` has one instance. This fails when its first calls overlap: both threads find no instance, both create one, and one of them goes home with an instance that is not the final one. -/
theorem C173_violation :
    (run start [.call 1 7, .call 2 7, .step 1, .step 2, .step 1, .step 2, .step 1, .step 1, .step 2, .step 2]).results = [(7, 0), (7, 1)] := by decide

/-- Whole calls one after the other, by any threads, for any classes. -/
def serial : List (Nat × Nat) → List Act
  | [] => []
  | (t, c) :: rest => alone t c ++ serial rest

theorem alone_run (s : State) (hq : s.threads = []) (t c : Nat) :
    (∃ o, s.cache.get? c = some o ∧ run s (alone t c) = { s with results := s.results ++ [(c, o)] }) ∨
    (s.cache.get? c = none ∧ run s (alone t c) = { s with cache := s.cache.set c s.next, next := s.next + 1, results := s.results ++ [(c, s.next)] }) := by
  obtain ⟨cache, next, threads, results⟩ := s
  simp only at hq
  subst hq
  cases hc : cache.get? c with
  | some o =>
    left
    have hm : c ∈ Dict.keys cache := (Dict.get?_isSome_iff _ _).1 (by rw [hc]; rfl)
    refine ⟨o, rfl, ?_⟩
    simp [run, alone, act, stepPc, Dict.set, Dict.get?, Dict.del, hm, hc]
  | none =>
    right
    have hm : c ∉ Dict.keys cache := (Dict.get?_eq_none_iff _ _).1 hc
    refine ⟨rfl, ?_⟩
    have hg : Dict.get? (Dict.set cache c next) c = some next := by rw [Dict.get?_set, if_pos rfl]
    simp [run, alone, act, stepPc, Dict.set, Dict.get?, Dict.del, hm] at hg ⊢
    simp [Dict.keys, hg]

/-- C173 (partial): missing: overlapping first calls. If calls do not overlap, every class has one instance, and different classes have different ones. -/
theorem C173_serial_partial (calls : List (Nat × Nat)) :
    ∀ c x c' x', (c, x) ∈ (run start (serial calls)).results → (c', x') ∈ (run start (serial calls)).results → (c = c' ↔ x = x') := by
  have key : ∀ (calls : List (Nat × Nat)) (s : State), s.threads = [] →
      (∀ c x, (c, x) ∈ s.results → s.cache.get? c = some x) → (∀ c x, s.cache.get? c = some x → x < s.next) →
      (∀ c c' x, s.cache.get? c = some x → s.cache.get? c' = some x → c = c') →
      ∀ c x c' x', (c, x) ∈ (run s (serial calls)).results → (c', x') ∈ (run s (serial calls)).results → (c = c' ↔ x = x') := by
    intro calls
    induction calls with
    | nil =>
      intro s _ h1 _ h3 c x c' x' hc hc'
      have a := h1 c x hc
      have b := h1 c' x' hc'
      constructor
      · rintro rfl; rw [a] at b; exact Option.some.inj b
      · rintro rfl; exact h3 c c' x a b
    | cons q calls ih =>
      obtain ⟨t, c0⟩ := q
      intro s hq h1 h2 h3
      have hrun : run s (serial ((t, c0) :: calls)) = run (run s (alone t c0)) (serial calls) := by
        simp [serial, run, List.foldl_append]
      rw [hrun]
      rcases alone_run s hq t c0 with ⟨o, ho, he⟩ | ⟨ho, he⟩
      · rw [he]
        refine ih _ hq ?_ h2 h3
        intro c x hx
        simp only [List.mem_append, List.mem_singleton, Prod.mk.injEq] at hx
        rcases hx with hx | ⟨rfl, rfl⟩
        · exact h1 c x hx
        · exact ho
      · rw [he]
        refine ih _ hq ?_ ?_ ?_
        · intro c x hx
          simp only [List.mem_append, List.mem_singleton, Prod.mk.injEq] at hx
          simp only [Dict.get?_set]
          rcases hx with hx | ⟨rfl, rfl⟩
          · have := h1 c x hx
            split
            · rename_i e; subst e; rw [ho] at this; cases this
            · exact this
          · rw [if_pos rfl]
        · intro c x hx
          simp only [Dict.get?_set] at hx
          show x < s.next + 1
          split at hx
          · injection hx with hx; omega
          · have := h2 c x hx; omega
        · intro c c' x hx hx'
          simp only [Dict.get?_set] at hx hx'
          split at hx <;> split at hx'
          · rename_i e e'; exact e.symm.trans e'
          · injection hx with hx; have := h2 c' x hx'; omega
          · injection hx' with hx'; have := h2 c x hx; omega
          · exact h3 c c' x hx hx'
  exact key calls start rfl (by simp [start]) (by simp [start, Dict.get?]) (by simp [start, Dict.get?])

example : (run start (serial [(1, 7), (2, 8), (2, 7)])).results = [(7, 0), (8, 1), (7, 0)] := by decide

end Verif.Sentinel
