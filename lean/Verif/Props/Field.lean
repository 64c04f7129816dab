import Verif.Model.Field

/-!
# C174-C177: fields and models made from specs
-/

set_option linter.unusedSectionVars false
set_option linter.unusedSimpArgs false
set_option linter.unusedVariables false

namespace Verif.Field

open Verif.Spec

variable {ν τ κ : Type}

/-! ## Lemmas -/

theorem get_cons (k : Key) (v : ν) (ms : Metas ν) (k' : Key) : get ((k, v) :: ms) k' = if k = k' then some v else get ms k' := by
  unfold Spec.get; rw [Dict.get?_cons]

/-- The default entry, if it is a plain value. -/
def plainDefault (V : Values ν) (ms : Metas ν) : Option ν :=
  match get ms .default with
  | some v => if V.callable v then none else some v
  | none => none

theorem step_default (V : Values ν) (M : More ν) (P : Key → Bool) (a : Acc ν) (m : Key × ν) :
    (step V M P a m).default = if m.1 = .default then (if V.callable m.2 then a.default else some m.2) else a.default := by
  unfold step
  by_cases h : m.1 = .default
  · rw [if_pos h, if_pos h]; split <;> rfl
  · rw [if_neg h, if_neg h]
    repeat' split
    all_goals rfl

theorem fold_default (V : Values ν) (M : More ν) (P : Key → Bool) : ∀ (ms : Metas ν) (a : Acc ν), (ms.map Prod.fst).Nodup →
    (ms.foldl (step V M P) a).default = (match plainDefault V ms with
      | some v => some v
      | none => a.default)
  | [], a, _ => rfl
  | m :: ms, a, hn => by
    obtain ⟨k, v⟩ := m
    simp only [List.map_cons, List.nodup_cons] at hn
    rw [List.foldl_cons, fold_default V M P ms _ hn.2, step_default]
    unfold plainDefault
    rw [get_cons]
    by_cases hk : k = .default
    · subst hk
      have hnone : get ms .default = none := (Dict.get?_eq_none_iff _ _).2 hn.1
      simp only [if_true, hnone]
      cases V.callable v <;> rfl
    · simp only [if_neg hk]

theorem step_factory (V : Values ν) (M : More ν) (P : Key → Bool) (a : Acc ν) (m : Key × ν) (hm : m.1 = .default → V.callable m.2 = false) :
    (step V M P a m).factory = if m.1 = .factory then some m.2 else a.factory := by
  unfold step
  by_cases h : m.1 = .default
  · rw [if_pos h, hm h]; simp [h]
  · rw [if_neg h]
    by_cases hv : m.1 = .validator
    · rw [if_pos hv, if_neg (by rw [hv]; simp)]
    · rw [if_neg hv]
      by_cases hf : m.1 = .factory
      · rw [if_pos hf, if_pos hf]
      · rw [if_neg hf, if_neg hf]
        repeat' split
        all_goals rfl

theorem fold_factory (V : Values ν) (M : More ν) (P : Key → Bool) : ∀ (ms : Metas ν) (a : Acc ν), (ms.map Prod.fst).Nodup →
    (∀ v, get ms .default = some v → V.callable v = false) →
    (ms.foldl (step V M P) a).factory = (match get ms .factory with
      | some v => some v
      | none => a.factory)
  | [], a, _, _ => rfl
  | m :: ms, a, hn, hc => by
    obtain ⟨k, v⟩ := m
    simp only [List.map_cons, List.nodup_cons] at hn
    have hc' : ∀ w, get ms .default = some w → V.callable w = false := by
      intro w hw
      refine hc w ?_
      rw [get_cons, if_neg ?_]
      · exact hw
      · rintro rfl
        exact hn.1 (Dict.mem_keys_of_get? hw)
    rw [List.foldl_cons, fold_factory V M P ms _ hn.2 hc', step_factory V M P a (k, v) (fun hk => hc v (by rw [get_cons, if_pos hk])), get_cons]
    by_cases hk : k = .factory
    · subst hk
      have hnone : get ms .factory = none := (Dict.get?_eq_none_iff _ _).2 hn.1
      simp [hnone]
    · simp only [if_neg hk]

/-! ### C174 -/

/-- Values for the examples: `None`, numbers (0 is falsy), functions, types, dicts, lists of functions. -/
inductive V where
  | none | num (n : Nat) | fn (n : Nat) | type (n : Nat) | dict (n : Nat) | fns (n : Nat) | true_
  deriving DecidableEq, Repr

def V.truthy : V → Bool
  | .none => false
  | .num n => n != 0
  | _ => true

def V.callable : V → Bool
  | .fn _ => true
  | .type _ => true
  | _ => false

def V.isTrue : V → Bool
  | .true_ => true
  | _ => false

def V.isFn : V → Bool
  | .fn _ => true
  | _ => false

def V.isType : V → Bool
  | .type _ => true
  | _ => false

def V.valid : V → Bool
  | .fn _ => true
  | .fns _ => true
  | _ => false

def V.entries : V → Metas V
  | .dict n => [(.other "a", .num n)]
  | _ => []

def V.isNone : V → Bool
  | .none => true
  | _ => false

def vals : Values V := ⟨V.truthy, V.callable, V.isTrue, fun _ => false, fun _ => false, fun _ => true, V.valid, fun _ => false⟩

def more : More V := ⟨V.isType, V.isFn, V.entries, .none, V.isNone⟩

def noParam : Key → Bool := fun _ => false

/-- C174: a model made from a spec gives a missing field the value `create_default_value()` gives. This fails: a callable given as `default` is the default for the spec, but is called by the model; and a spec with a falsy default and a factory is accepted, but no field can be made from it. -/
theorem C174_violation :
    (∃ s f, mk vals (fun _ : Nat => true) (some 0) [] [] [(.name, .num 1), (.default, .fn 3)] = .ok s ∧ createField vals more noParam s = .ok f ∧
      createDefault vals s = .ok (.value (.fn 3)) ∧ f.missing = some (.called (.fn 3))) ∧
    (∃ s, mk vals (fun _ : Nat => true) (some 0) [] [] [(.name, .num 1), (.default, .num 0), (.factory, .fn 3)] = .ok s ∧ createField vals more noParam s = .error .typeError) :=
  ⟨⟨⟨some 0, [(.name, .num 1), (.default, .fn 3)]⟩, ⟨.base 0, none, some (.fn 3), [], some [(.name, .num 1)]⟩, by decide, by decide, by decide, by decide⟩,
    ⟨⟨some 0, [(.name, .num 1), (.default, .num 0), (.factory, .fn 3)]⟩, by decide, by decide⟩⟩

theorem noDup_nodup : ∀ (ms : Metas ν) (seen : List Key), noDup seen ms = true → (ms.map Prod.fst).Nodup ∧ ∀ k ∈ ms.map Prod.fst, k ∉ seen
  | [], seen, _ => by simp
  | m :: ms, seen, h => by
    simp only [noDup] at h
    split at h
    · cases h
    · rename_i hs
      obtain ⟨h1, h2⟩ := noDup_nodup ms (seen ++ [m.1]) h
      refine ⟨?_, ?_⟩
      · simp only [List.map_cons, List.nodup_cons]
        exact ⟨fun hm => h2 m.1 hm (by simp), h1⟩
      · intro k hk
        simp only [List.map_cons, List.mem_cons] at hk
        rcases hk with rfl | hk
        · exact hs
        · intro hks; exact h2 k hk (by simp [hks])

theorem mk_nodup {W : Values ν} {vt : τ → Bool} {b : Option τ} {m a kw : Metas ν} {s : Spec ν τ} (h : mk W vt b m a kw = .ok s) : (s.metas.map Prod.fst).Nodup := by
  unfold mk prepare at h
  split at h
  · cases h
  · rename_i ms hp
    split at hp
    · rename_i hd
      split at hp
      · injection hp with hp
        split at h
        · split at h
          · injection h with h
            rw [← h, ← hp]
            exact (noDup_nodup _ _ hd).1
          · cases h
        · cases h
      · cases hp
    · cases hp

/-- C174 (partial): missing: callables given as `default`, specs with both a (falsy) default and a factory, and factories that cannot be called. For every other spec that can be made, a field can be made too; what a model gives the missing field is what `create_default_value()` gives; if that raises because there is no default, the field defaults to `None` if nullable and is required otherwise. -/
theorem C174_default_partial (W : Values ν) (M : More ν) (P : Key → Bool) (vt : τ → Bool) (b : Option τ) (m a kw : Metas ν) (s : Spec ν τ)
    (h : mk W vt b m a kw = .ok s) (h1 : ∀ v, get s.metas .default = some v → W.callable v = false ∧ get s.metas .factory = none)
    (h2 : ∀ v, get s.metas .factory = some v → W.callable v = true ∧ M.isNone v = false) :
    ∃ f, createField W M P s = .ok f ∧ f.annotation = annotation W s ∧
      (∀ c, createDefault W s = .ok c → f.missing = some c) ∧
      (get s.metas .default = none → get s.metas .factory = none → f.missing = if flag W s .nullable then some (.value M.none) else none) := by
  have hn := mk_nodup h
  have hd : (collect W M P s.metas).default = plainDefault W s.metas := by
    unfold collect; rw [fold_default W M P s.metas .empty hn]
    cases plainDefault W s.metas <;> rfl
  have hf : (collect W M P s.metas).factory = get s.metas .factory := by
    unfold collect; rw [fold_factory W M P s.metas .empty hn (fun v hv => (h1 v hv).1)]
    cases get s.metas .factory <;> rfl
  have hg : givenFactory M (get s.metas .factory) = get s.metas .factory := by
    cases hgf : get s.metas .factory with
    | none => rfl
    | some g => simp [givenFactory, (h2 g hgf).2]
  unfold createField
  rw [hd, hf, hg]
  cases hdef : get s.metas .default with
  | some v =>
    obtain ⟨hc, hnf⟩ := h1 v hdef
    have hpd : plainDefault W s.metas = some v := by simp [plainDefault, hdef, hc]
    rw [hpd, hnf]
    refine ⟨_, rfl, rfl, ?_, ?_⟩
    · intro c hcd
      simp only [createDefault, Spec.default, hdef, hasAsync, hasFactory, hnf, Option.any_none, Bool.false_eq_true, if_false] at hcd
      split at hcd
      · cases hcd
      injection hcd with hcd
      subst hcd
      simp only [FieldInfo.missing, nullDefault, hd, hpd]
      simp
    · intro hx; cases hx
  | none =>
    have hpd : plainDefault W s.metas = none := by simp [plainDefault, hdef]
    rw [hpd]
    refine ⟨_, rfl, rfl, ?_, ?_⟩
    · intro c hcd
      cases hgf : get s.metas .factory with
      | none => simp [createDefault, Spec.default, hdef, hgf] at hcd
      | some g =>
        have hcall := (h2 g hgf).1
        simp only [createDefault, Spec.default, hdef, hgf, hasFactory, Option.any_some, hcall, if_true, call] at hcd
        split at hcd
        · cases hcd
        split at hcd
        · cases hcd
        · injection hcd with hcd
          subst hcd
          simp [FieldInfo.missing]
    · intro _ hnf
      rw [hnf]
      simp only [FieldInfo.missing, nullDefault, hd, hpd, hf, hnf]
      cases flag W s .nullable <;> rfl

example : ∃ s f, mk vals (fun _ : Nat => true) (some 0) [] [] [(.name, .num 1), (.nullable, .true_), (.factory, .fn 3)] = .ok s ∧
    createField vals more noParam s = .ok f ∧ f.missing = some (.called (.fn 3)) ∧ createDefault vals s = .ok (.called (.fn 3)) :=
  ⟨⟨some 0, [(.name, .num 1), (.nullable, .true_), (.factory, .fn 3)]⟩, ⟨.optional (.base 0), none, some (.fn 3), [], some [(.name, .num 1)]⟩, by decide, by decide, by decide, by decide⟩

/-- C174 (the failures): making a field fails only with `TypeError`, exactly if there are both a default and a factory other than `None`. Missing: callables given as `default`. -/
theorem C174_conflict_partial (W : Values ν) (M : More ν) (P : Key → Bool) (s : Spec ν τ) (hn : (s.metas.map Prod.fst).Nodup)
    (h1 : ∀ v, get s.metas .default = some v → W.callable v = false) (e : Exc) :
    createField W M P s = .error e ↔ e = .typeError ∧ (∃ v, get s.metas .default = some v) ∧ ∃ g, get s.metas .factory = some g ∧ M.isNone g = false := by
  have hd : (collect W M P s.metas).default = get s.metas .default := by
    unfold collect; rw [fold_default W M P s.metas .empty hn]
    unfold plainDefault
    cases hg : get s.metas .default with
    | none => rfl
    | some v => simp [h1 v hg]
  have hf : (collect W M P s.metas).factory = get s.metas .factory := by
    unfold collect; rw [fold_factory W M P s.metas .empty hn h1]
    cases get s.metas .factory <;> rfl
  unfold createField
  rw [hd, hf]
  cases get s.metas .default with
  | none => simp
  | some v =>
    cases get s.metas .factory with
    | none => simp [givenFactory]
    | some g =>
      cases hg : M.isNone g with
      | true => simp [givenFactory, hg]
      | false => simp [givenFactory, hg]; exact ⟨fun h => h.symm, fun h => h.symm⟩

example : createField vals more noParam (⟨some 0, [(.name, .num 1), (.default, .num 0), (.factory, .fn 3)]⟩ : Spec V Nat) = .error .typeError := by decide

theorem step_factory_called (V : Values ν) (M : More ν) (P : Key → Bool) (a : Acc ν) (m : Key × ν) (hm : m.1 ≠ .factory) :
    (step V M P a m).factory = if m.1 = .default ∧ V.callable m.2 = true then some m.2 else a.factory := by
  unfold step
  by_cases h : m.1 = .default
  · rw [if_pos h]
    by_cases c : V.callable m.2 = true
    · rw [if_pos c, if_pos ⟨h, c⟩]
    · rw [if_neg c, if_neg (fun x => c x.2)]
  · rw [if_neg h, if_neg (show ¬ (m.1 = .default ∧ V.callable m.2 = true) from fun x => h x.1)]
    by_cases hv : m.1 = .validator
    · rw [if_pos hv]
    · rw [if_neg hv, if_neg hm]
      repeat' split
      all_goals rfl

theorem fold_factory_called (V : Values ν) (M : More ν) (P : Key → Bool) : ∀ (ms : Metas ν) (a : Acc ν) (v : ν), (ms.map Prod.fst).Nodup →
    get ms .factory = none → V.callable v = true → (get ms .default = some v ∨ (get ms .default = none ∧ a.factory = some v)) →
    (ms.foldl (step V M P) a).factory = some v
  | [], a, v, _, _, _, h => by
    rcases h with h | h
    · cases h
    · exact h.2
  | (k, w) :: ms, a, v, hn, hf, hc, h => by
    simp only [List.map_cons, List.nodup_cons] at hn
    rw [get_cons] at hf h
    have hk : k ≠ .factory := by
      intro x; rw [if_pos x] at hf; cases hf
    rw [if_neg hk] at hf
    rw [List.foldl_cons]
    refine fold_factory_called V M P ms _ v hn.2 hf hc ?_
    rw [step_factory_called V M P a (k, w) hk]
    by_cases hd : k = .default
    · subst hd
      have hnone : get ms .default = none := (Dict.get?_eq_none_iff _ _).2 hn.1
      rw [if_pos rfl] at h
      rcases h with h | h
      · injection h with h
        subst h
        exact .inr ⟨hnone, by rw [if_pos ⟨rfl, hc⟩]⟩
      · cases h.1
    · rw [if_neg hd] at h
      rw [if_neg (fun x => hd x.1)]
      exact h

/-- C174 (callables given as `default`, without a factory): `create_default_value()` gives the callable itself if it gives anything, and a model calls it. -/
theorem C174_callable_partial (W : Values ν) (M : More ν) (P : Key → Bool) (vt : τ → Bool) (b : Option τ) (m a kw : Metas ν) (s : Spec ν τ)
    (h : mk W vt b m a kw = .ok s) (v : ν) (hd : get s.metas .default = some v) (hc : W.callable v = true) (hv : M.isNone v = false) (hf : get s.metas .factory = none) :
    ∃ f, createField W M P s = .ok f ∧ f.annotation = annotation W s ∧ f.missing = some (.called v) ∧ ∀ c, createDefault W s = .ok c → c = .value v := by
  have hn := mk_nodup h
  have h1 : (collect W M P s.metas).default = none := by
    unfold collect; rw [fold_default W M P s.metas .empty hn]
    simp [plainDefault, hd, hc, Acc.empty]
  have h2 : (collect W M P s.metas).factory = some v := by
    unfold collect; exact fold_factory_called W M P s.metas .empty v hn hf hc (.inl hd)
  have h3 : givenFactory M (some v) = some v := by simp [givenFactory, hv]
  unfold createField
  rw [h1, h2, h3]
  refine ⟨_, rfl, rfl, rfl, fun c e => ?_⟩
  simp only [createDefault, Spec.default, hd, hasAsync, hasFactory, hf, Option.any_none, Bool.false_eq_true, if_false] at e
  split at e
  · cases e
  · injection e with e
    exact e.symm

example : ∃ s, mk vals (fun _ : Nat => true) (some 0) [] [] [(.name, .num 1), (.default, .fn 3)] = .ok s ∧ get s.metas .default = some (.fn 3) ∧ vals.callable (.fn 3) = true ∧
    more.isNone (.fn 3) = false ∧ get s.metas .factory = none :=
  ⟨⟨some 0, [(.name, .num 1), (.default, .fn 3)]⟩, by decide, by decide, by decide, by decide, by decide⟩

/-- C174, exactly, for specs whose default is not callable (callables: `C174_callable_partial`): a field can be made and gives what `create_default_value()` gives if and only if a factory
given beside a default is `None`, and a factory given alone can be called (or is `Undefined`, when the spec gives no default at all). -/
theorem C174_exact_partial (W : Values ν) (M : More ν) (P : Key → Bool) (vt : τ → Bool) (b : Option τ) (m a kw : Metas ν) (s : Spec ν τ) (h : mk W vt b m a kw = .ok s)
    (hN : ∀ v, M.isNone v = true → W.callable v = false) (h1 : ∀ v, get s.metas .default = some v → W.callable v = false) :
    (∃ f, createField W M P s = .ok f ∧ ∀ c, createDefault W s = .ok c → f.missing = some c) ↔
      ∀ g, get s.metas .factory = some g → (∀ d, get s.metas .default = some d → M.isNone g = true) ∧
        (get s.metas .default = none → W.callable g = true ∨ W.undefined g = true) := by
  have hn := mk_nodup h
  have hd : (collect W M P s.metas).default = get s.metas .default := by
    unfold collect; rw [fold_default W M P s.metas .empty hn]
    unfold plainDefault
    cases hg : get s.metas .default with
    | none => rfl
    | some v => simp [h1 v hg]
  have hf : (collect W M P s.metas).factory = get s.metas .factory := by
    unfold collect; rw [fold_factory W M P s.metas .empty hn h1]
    cases get s.metas .factory <;> rfl
  unfold createField
  rw [hd, hf]
  cases hdef : get s.metas .default with
  | some v =>
    have hc := h1 v hdef
    cases hgf : get s.metas .factory with
    | none =>
      refine ⟨fun _ g hg => (nomatch hg), fun _ => ⟨_, rfl, fun c hcd => ?_⟩⟩
      simp only [createDefault, Spec.default, hdef, hasAsync, hasFactory, hgf, Option.any_none, Bool.false_eq_true, if_false] at hcd
      split at hcd
      · cases hcd
      · injection hcd with hcd
        subst hcd
        simp [FieldInfo.missing, nullDefault, hd, hdef, givenFactory]
    | some g =>
      by_cases hg : M.isNone g = true
      · refine ⟨fun _ g' hg' => ⟨fun _ _ => ?_, fun x => (nomatch x)⟩, fun _ => ?_⟩
        · injection hg' with hg'; rw [← hg']; exact hg
        · simp only [givenFactory, if_pos hg, Option.isSome_none, Bool.and_false, Bool.false_eq_true, if_false]
          refine ⟨_, rfl, fun c hcd => ?_⟩
          simp only [createDefault, Spec.default, hdef, hasAsync, hasFactory, hgf, Option.any_some, hN g hg, Bool.false_and, Bool.false_eq_true, if_false] at hcd
          split at hcd
          · cases hcd
          · injection hcd with hcd
            subst hcd
            simp [FieldInfo.missing, nullDefault, hd, hdef]
      · refine ⟨?_, fun x => absurd ((x g rfl).1 v rfl) hg⟩
        simp only [givenFactory, if_neg hg, Option.isSome_some, Bool.and_self, if_true]
        rintro ⟨f, e, _⟩
        cases e
  | none =>
    cases hgf : get s.metas .factory with
    | none =>
      refine ⟨fun _ g hg => (nomatch hg), fun _ => ⟨_, rfl, fun c hcd => ?_⟩⟩
      simp [createDefault, Spec.default, hdef, hgf] at hcd
    | some g =>
      simp only [Option.isSome_none, Bool.false_and, Bool.false_eq_true, if_false]
      have hmiss : ∀ f : FieldInfo ν τ, (Except.ok ⟨annotation W s, nullDefault W M s (collect W M P s.metas), givenFactory M (some g), (collect W M P s.metas).params,
          (collect W M P s.metas).extra⟩ : Except Exc (FieldInfo ν τ)) = .ok f → f.missing = if M.isNone g = true then none else some (.called g) := by
        intro f e
        injection e with e
        subst e
        by_cases hg : M.isNone g = true
        · simp [FieldInfo.missing, nullDefault, hd, hdef, hf, hgf, givenFactory, hg]
        · simp [FieldInfo.missing, givenFactory, hg]
      by_cases hu : W.undefined g = true
      · refine ⟨fun _ g' hg' => ⟨fun d x => (nomatch x), fun _ => .inr ?_⟩, fun _ => ⟨_, rfl, fun c hcd => ?_⟩⟩
        · injection hg' with hg'; rw [← hg']; exact hu
        · simp [createDefault, Spec.default, hdef, hgf, hu] at hcd
      · by_cases hc : W.callable g = true
        · refine ⟨fun _ g' hg' => ⟨fun d x => (nomatch x), fun _ => .inl ?_⟩, fun _ => ⟨_, rfl, fun c hcd => ?_⟩⟩
          · injection hg' with hg'; rw [← hg']; exact hc
          · have hng : ¬ M.isNone g = true := by
              intro x; rw [hN g x] at hc; cases hc
            rw [hmiss _ rfl, if_neg hng]
            simp only [createDefault, Spec.default, hdef, hgf, if_neg hu, hasFactory, Option.any_some, hc, if_true, call] at hcd
            split at hcd
            · cases hcd
            · injection hcd with hcd
              rw [hcd]
        · refine ⟨?_, fun x => ?_⟩
          · rintro ⟨f, e, h2⟩
            exfalso
            have h3 := h2 (.value g) (by simp [createDefault, Spec.default, hdef, hgf, hu, hasAsync, hasFactory, hc])
            rw [hmiss f e] at h3
            split at h3
            · cases h3
            · injection h3 with h3; cases h3
          · rcases (x g rfl).2 trivial with y | y
            · exact absurd y hc
            · exact absurd y hu

example : ∃ s, mk vals (fun _ : Nat => true) (some 0) [] [] [(.name, .num 1), (.default, .num 2), (.factory, .none)] = .ok s ∧ ∃ f, createField vals more noParam s = .ok f ∧
    f.missing = some (.value (.num 2)) ∧ createDefault vals s = .ok (.value (.num 2)) :=
  ⟨⟨some 0, [(.name, .num 1), (.default, .num 2), (.factory, .none)]⟩, by decide, ⟨.base 0, some (.num 2), none, [], some [(.name, .num 1)]⟩, by decide, by decide, by decide⟩

/-! ### C175 -/

/-- Keys with a meaning of their own. -/
def Common (k : Key) : Prop := k = .default ∨ k = .factory ∨ k = .validator ∨ k = .nullable ∨ k = .listable

instance (k : Key) : Decidable (Common k) := by unfold Common; infer_instance

/-- C175: every further metadata entry of a spec reaches the field, as parameter or as extra schema entry. This fails: `json_schema_extra` replaces the entries before it, and entries whose value is a type are dropped. -/
theorem C175_violation :
    (∃ f, createField vals more noParam (⟨some 0, [(.other "unit", .num 5), (.other "json_schema_extra", .dict 7)]⟩ : Spec V Nat) = .ok f ∧ f.extra = some [(.other "a", .num 7)]) ∧
    (∃ f, createField vals more noParam (⟨some 0, [(.other "kind", .type 5)]⟩ : Spec V Nat) = .ok f ∧ f.extra = none ∧ f.params = []) :=
  ⟨⟨⟨.base 0, none, none, [], some [(.other "a", .num 7)]⟩, by decide, rfl⟩, ⟨⟨.base 0, none, none, [], none⟩, by decide, rfl, rfl⟩⟩

theorem step_params (W : Values ν) (M : More ν) (P : Key → Bool) (a : Acc ν) (k : Key) (v : ν) (hP : ∀ k, P k = true → ¬ Common k ∧ k ≠ extraKey) :
    (step W M P a (k, v)).params = if P k = true then a.params.set k v else a.params := by
  unfold step
  by_cases hp : P k = true
  · obtain ⟨hc, he⟩ := hP k hp
    simp only [Common, not_or] at hc
    simp only [if_neg hc.1, if_neg hc.2.2.1, if_neg hc.2.1, if_neg he, hp, if_true]
  · simp only [hp, if_false, Bool.false_eq_true]
    repeat' split
    all_goals rfl

theorem step_extra (W : Values ν) (M : More ν) (P : Key → Bool) (a : Acc ν) (k : Key) (v : ν) (he : k ≠ extraKey) :
    (step W M P a (k, v)).extra = if Common k ∨ P k = true ∨ M.isType v = true then a.extra else some ((a.extra.getD []).set k v) := by
  unfold step
  simp only
  by_cases h1 : k = .default
  · have hc : Common k ∨ P k = true ∨ M.isType v = true := .inl (.inl h1)
    rw [if_pos h1, if_pos hc]; split <;> rfl
  · by_cases h2 : k = .validator
    · rw [if_neg h1, if_pos h2, if_pos (.inl (.inr (.inr (.inl h2))))]
    · by_cases h3 : k = .factory
      · rw [if_neg h1, if_neg h2, if_pos h3, if_pos (.inl (.inr (.inl h3)))]
      · rw [if_neg h1, if_neg h2, if_neg h3, if_neg he]
        by_cases h4 : P k = true
        · rw [if_pos h4, if_pos (.inr (.inl h4))]
        · by_cases h5 : k = .nullable ∨ k = .listable
          · rw [if_neg h4, if_pos h5, if_pos (.inl (.inr (.inr (.inr h5))))]
          · by_cases h6 : M.isType v = true
            · rw [if_neg h4, if_neg h5, if_pos h6, if_pos (.inr (.inr h6))]
            · rw [if_neg h4, if_neg h5, if_neg h6, if_neg]
              simp only [Common]
              rintro ((h | h | h | h | h) | h | h)
              · exact h1 h
              · exact h3 h
              · exact h2 h
              · exact h5 (.inl h)
              · exact h5 (.inr h)
              · exact h4 h
              · exact h6 h

theorem fold_params (W : Values ν) (M : More ν) (P : Key → Bool) (hP : ∀ k, P k = true → ¬ Common k ∧ k ≠ extraKey) :
    ∀ (ms : Metas ν) (a : Acc ν), (ms.map Prod.fst).Nodup → ∀ k,
      (ms.foldl (step W M P) a).params.get? k = (if P k = true ∧ k ∈ ms.map Prod.fst then get ms k else a.params.get? k)
  | [], a, _, k => by simp
  | (k0, v) :: ms, a, hn, k => by
    simp only [List.map_cons, List.nodup_cons] at hn
    rw [List.foldl_cons, fold_params W M P hP ms _ hn.2 k, step_params W M P a k0 v hP, get_cons]
    by_cases hk : P k = true
    · by_cases hm : k ∈ ms.map Prod.fst
      · have hne : k0 ≠ k := by rintro rfl; exact hn.1 hm
        have hm' : k ∈ ((k0, v) :: ms).map Prod.fst := by rw [List.map_cons]; exact List.mem_cons_of_mem _ hm
        rw [if_pos ⟨hk, hm⟩, if_pos ⟨hk, hm'⟩, if_neg hne]
      · rw [if_neg (show ¬ (P k = true ∧ k ∈ ms.map Prod.fst) from fun h => hm h.2)]
        by_cases he : k0 = k
        · subst he
          rw [if_pos hk, if_pos (⟨hk, List.mem_cons_self⟩ : P k0 = true ∧ k0 ∈ ((k0, v) :: ms).map Prod.fst), if_pos rfl, Dict.get?_set, if_pos rfl]
        · have hnot : ¬ (P k = true ∧ k ∈ ((k0, v) :: ms).map Prod.fst) := by
            rintro ⟨_, h⟩
            simp only [List.map_cons, List.mem_cons] at h
            rcases h with h | h
            · exact he h.symm
            · exact hm h
          rw [if_neg hnot]
          by_cases hk0 : P k0 = true
          · rw [if_pos hk0, Dict.get?_set, if_neg he]
          · rw [if_neg hk0]
    · rw [if_neg (show ¬ (P k = true ∧ k ∈ ms.map Prod.fst) from fun h => hk h.1), if_neg (show ¬ (P k = true ∧ k ∈ ((k0, v) :: ms).map Prod.fst) from fun h => hk h.1)]
      by_cases hk0 : P k0 = true
      · have hne : k0 ≠ k := by rintro rfl; exact hk hk0
        rw [if_pos hk0, Dict.get?_set, if_neg hne]
      · rw [if_neg hk0]

/-- The entries of an optional dict. -/
def extraGet (e : Option (Dict Key ν)) (k : Key) : Option ν := (e.getD []).get? k

theorem fold_extra (W : Values ν) (M : More ν) (P : Key → Bool) : ∀ (ms : Metas ν) (a : Acc ν), (ms.map Prod.fst).Nodup → extraKey ∉ ms.map Prod.fst → ∀ k,
      extraGet (ms.foldl (step W M P) a).extra k =
        (match get ms k with
          | some v => if M.isType v = true ∨ Common k ∨ P k = true then extraGet a.extra k else some v
          | none => extraGet a.extra k)
  | [], a, _, _, k => rfl
  | (k0, v) :: ms, a, hn, he, k => by
    simp only [List.map_cons, List.nodup_cons] at hn
    simp only [List.map_cons, List.mem_cons, not_or] at he
    rw [List.foldl_cons, fold_extra W M P ms _ hn.2 he.2 k, step_extra W M P a k0 v (fun e => he.1 e.symm), get_cons]
    by_cases hk : k0 = k
    · subst hk
      have hnone : get ms k0 = none := (Dict.get?_eq_none_iff _ _).2 hn.1
      rw [hnone, if_pos rfl]
      simp only
      by_cases hc : Common k0 ∨ P k0 = true ∨ M.isType v = true
      · rw [if_pos hc, if_pos (by rcases hc with h | h | h; exact .inr (.inl h); exact .inr (.inr h); exact .inl h)]
      · rw [if_neg hc, if_neg (by rintro (h | h | h); exact hc (.inr (.inr h)); exact hc (.inl h); exact hc (.inr (.inl h)))]
        simp only [extraGet, Option.getD_some, Dict.get?_set, if_true]
    · rw [if_neg hk]
      have : extraGet (if Common k0 ∨ P k0 = true ∨ M.isType v = true then a.extra else some ((a.extra.getD []).set k0 v)) k = extraGet a.extra k := by
        split
        · rfl
        · simp only [extraGet, Option.getD_some, Dict.get?_set, if_neg hk]
      rw [this]

/-- C175 (partial): missing: specs with a `json_schema_extra` entry, and values that are types. Otherwise every further entry is found under its key among the parameters (if `Field` has such a parameter) or the extra entries (if not), with its value, and nothing else is there. -/
theorem C175_metadata_partial (W : Values ν) (M : More ν) (P : Key → Bool) (hP : ∀ k, P k = true → ¬ Common k ∧ k ≠ extraKey)
    (s : Spec ν τ) (hn : (s.metas.map Prod.fst).Nodup) (he : get s.metas extraKey = none) (f : FieldInfo ν τ) (h : createField W M P s = .ok f)
    (k : Key) (hk : ¬ Common k) (ht : ∀ v, get s.metas k = some v → M.isType v = false) :
    f.params.get? k = (if P k = true then get s.metas k else none) ∧ extraGet f.extra k = (if P k = true then none else get s.metas k) := by
  unfold createField at h
  split at h
  · cases h
  · injection h with h
    subst h
    simp only [collect]
    rw [fold_params W M P hP s.metas .empty hn k, fold_extra W M P s.metas .empty hn ((Dict.get?_eq_none_iff _ _).1 he) k]
    refine ⟨?_, ?_⟩
    · by_cases hp : P k = true
      · rw [if_pos hp]
        by_cases hm : k ∈ s.metas.map Prod.fst
        · rw [if_pos ⟨hp, hm⟩]
        · rw [if_neg (fun h => hm h.2), show get s.metas k = none from (Dict.get?_eq_none_iff _ _).2 hm]
          rfl
      · rw [if_neg (fun h => hp h.1), if_neg hp]
        rfl
    · cases hg : get s.metas k with
      | none => simp [extraGet, Acc.empty, Dict.get?]
      | some v =>
        simp only
        by_cases hp : P k = true
        · rw [if_pos (.inr (.inr hp)), if_pos hp]
          rfl
        · rw [if_neg (by rintro (h | h | h); rw [ht v hg] at h; cases h; exact hk h; exact hp h), if_neg hp]

/-- Field parameters in the examples: `description`. -/
def descParam : Key → Bool := fun k => decide (k = .other "description")

example : createField vals more descParam (⟨some 0, [(.name, .num 1), (.other "unit", .num 5), (.other "description", .num 7)]⟩ : Spec V Nat) =
    .ok ⟨.base 0, none, none, [(.other "description", .num 7)], some [(.name, .num 1), (.other "unit", .num 5)]⟩ := by decide

/-! ### C176 -/

/-- C176: making a field leaves the spec as it is. This fails: metadata entries after `json_schema_extra` are written into the dict given there. -/
theorem C176_violation :
    extraAfter vals more noParam (⟨some 0, [(extraKey, .dict 7), (.other "unit", .num 5)]⟩ : Spec V Nat) = some [(.other "a", .num 7), (.other "unit", .num 5)] ∧
    V.entries (.dict 7) = [(.other "a", .num 7)] := by decide

theorem fold_keep (W : Values ν) (M : More ν) (P : Key → Bool) : ∀ (ms : Metas ν) (a : Acc ν), extraKey ∉ ms.map Prod.fst →
    (∀ m ∈ ms, Common m.1 ∨ P m.1 = true ∨ M.isType m.2 = true) →
    (ms.foldl (step W M P) a).extra = a.extra ∧ (ms.foldl (step W M P) a).shared = a.shared
  | [], a, _, _ => ⟨rfl, rfl⟩
  | (k, v) :: ms, a, he, h => by
    simp only [List.map_cons, List.mem_cons, not_or] at he
    obtain ⟨h1, h2⟩ := fold_keep W M P ms (step W M P a (k, v)) he.2 (fun m hm => h m (List.mem_cons_of_mem _ hm))
    rw [List.foldl_cons]
    refine ⟨?_, ?_⟩
    · rw [h1, step_extra W M P a k v (fun e => he.1 e.symm), if_pos (h (k, v) List.mem_cons_self)]
    · rw [h2]
      unfold step
      simp only
      rw [if_neg (c := k = extraKey) (fun e => he.1 e.symm)]
      repeat' split
      all_goals rfl

/-- C176 (partial): missing: entries for the extra schema after a `json_schema_extra` entry. If all entries after it are common ones, parameters or types, the dict given there stays as it is. -/
theorem C176_untouched_partial (W : Values ν) (M : More ν) (P : Key → Bool) (s : Spec ν τ) (ms ms' : Metas ν) (v : ν)
    (hs : s.metas = ms ++ (extraKey, v) :: ms') (hn : (s.metas.map Prod.fst).Nodup)
    (h : ∀ m ∈ ms', Common m.1 ∨ P m.1 = true ∨ M.isType m.2 = true) : extraAfter W M P s = some (M.entries v) := by
  have he : extraKey ∉ ms'.map Prod.fst := by
    rw [hs, List.map_append, List.map_cons] at hn
    exact (List.nodup_cons.1 (List.nodup_append.1 hn).2.1).1
  unfold extraAfter collect
  rw [hs, List.foldl_append, List.foldl_cons]
  have hst : ∀ a : Acc ν, step W M P a (extraKey, v) = { a with extra := some (M.entries v), shared := true } := by
    intro a
    unfold step
    simp [extraKey]
  rw [hst]
  obtain ⟨h1, h2⟩ := fold_keep W M P ms' _ he h
  rw [h1, h2, if_pos rfl]

example : extraAfter vals more noParam (⟨some 0, [(.name, .num 1), (extraKey, .dict 7), (.nullable, .true_)]⟩ : Spec V Nat) = some [(.other "a", .num 7)] := by decide

/-- C176: without a `json_schema_extra` entry nothing given to the spec is written to. -/
theorem C176_no_dict (W : Values ν) (M : More ν) (P : Key → Bool) (s : Spec ν τ) (h : extraKey ∉ s.metas.map Prod.fst) : extraAfter W M P s = none := by
  have : ∀ (ms : Metas ν) (a : Acc ν), extraKey ∉ ms.map Prod.fst → (ms.foldl (step W M P) a).shared = a.shared := by
    intro ms
    induction ms with
    | nil => intro a _; rfl
    | cons m ms ih =>
      intro a he
      simp only [List.map_cons, List.mem_cons, not_or] at he
      rw [List.foldl_cons, ih _ he.2]
      unfold step
      rw [if_neg (c := m.1 = extraKey) (fun e => he.1 e.symm)]
      repeat' split
      all_goals rfl
  unfold extraAfter collect
  rw [this s.metas .empty h]
  rfl

example : extraKey ∉ (⟨some 0, [(.name, .num 1), (.other "unit", .num 5)]⟩ : Spec V Nat).metas.map Prod.fst := by decide

/-! ### C177 -/

variable [DecidableEq κ]

/-- C177: `create_model` makes a model with the selected fields and their validators. This fails for a spec with a list of validators (which `Spec` accepts): it raises `TypeError`. -/
theorem C177_violation :
    (∃ s, mk vals (fun _ : Nat => true) (some 0) [] [] [(.name, .num 1), (.validator, .fns 2)] = .ok s ∧
      createModel vals more noParam (fun s => get s.metas .name) (⟨[], []⟩ : ModelClass V V Nat) [s] = .error .typeError) :=
  ⟨⟨some 0, [(.name, .num 1), (.validator, .fns 2)]⟩, by decide, rfl⟩

theorem fieldsOf_ok (W : Values ν) (M : More ν) (P : Key → Bool) (nameOf : Spec ν τ → Option κ) : ∀ (specs : List (Spec ν τ)) (d : Dict κ (FieldInfo ν τ)),
    (specs.filterMap nameOf).Nodup → (∀ s ∈ specs, nameOf s ≠ none → ∃ f, createField W M P s = .ok f) →
    ∃ d', fieldsOf W M P nameOf specs d = .ok d' ∧ (d.WF → d'.WF) ∧
      (∀ s ∈ specs, ∀ n f, nameOf s = some n → createField W M P s = .ok f → d'.get? n = some f) ∧
      (∀ n, n ∉ specs.filterMap nameOf → d'.get? n = d.get? n)
  | [], d, _, _ => ⟨d, rfl, id, by simp, fun _ _ => rfl⟩
  | s :: specs, d, hn, h => by
    cases hs : nameOf s with
    | none =>
      rw [List.filterMap_cons_none hs] at hn
      obtain ⟨d', h1, hw, h2, h3⟩ := fieldsOf_ok W M P nameOf specs d hn (fun s' hs' => h s' (List.mem_cons_of_mem _ hs'))
      refine ⟨d', by simp only [fieldsOf, hs]; exact h1, hw, ?_, ?_⟩
      · intro s' hs' n f hn' hf'
        rcases List.mem_cons.1 hs' with rfl | hs'
        · rw [hs] at hn'; cases hn'
        · exact h2 s' hs' n f hn' hf'
      · intro n hn'; rw [List.filterMap_cons_none hs] at hn'; exact h3 n hn'
    | some n0 =>
      rw [List.filterMap_cons_some hs, List.nodup_cons] at hn
      obtain ⟨f0, hf0⟩ := h s List.mem_cons_self (by rw [hs]; simp)
      obtain ⟨d', h1, hw, h2, h3⟩ := fieldsOf_ok W M P nameOf specs (d.set n0 f0) hn.2 (fun s' hs' => h s' (List.mem_cons_of_mem _ hs'))
      refine ⟨d', by simp only [fieldsOf, hs, hf0]; exact h1, fun wd => hw (Dict.set_wf wd _ _), ?_, ?_⟩
      · intro s' hs' n f hn' hf'
        rcases List.mem_cons.1 hs' with rfl | hs'
        · rw [hs] at hn'
          injection hn' with hn'
          subst hn'
          rw [h3 n0 hn.1, Dict.get?_set, if_pos rfl]
          rw [hf0] at hf'
          injection hf' with hf'
          rw [hf']
        · exact h2 s' hs' n f hn' hf'
      · intro n hn'
        rw [List.filterMap_cons_some hs, List.mem_cons, not_or] at hn'
        rw [h3 n hn'.2, Dict.get?_set, if_neg (fun e => hn'.1 e.symm)]

theorem validatorsOf_ok (W : Values ν) (M : More ν) (nameOf : Spec ν τ → Option κ) : ∀ (specs : List (Spec ν τ)),
    (∀ s ∈ specs, nameOf s ≠ none → ∀ v, get s.metas .validator = some v → W.sentinel v = true ∨ M.isFunction v = true) →
    ∃ vs, validatorsOf W M nameOf specs = .ok vs ∧
      ∀ n v, (n, v) ∈ vs ↔ ∃ s ∈ specs, nameOf s = some n ∧ get s.metas .validator = some v ∧ W.sentinel v = false
  | [], _ => ⟨[], rfl, by simp⟩
  | s :: specs, h => by
    obtain ⟨vs, h1, h2⟩ := validatorsOf_ok W M nameOf specs (fun s' hs' => h s' (List.mem_cons_of_mem _ hs'))
    cases hs : nameOf s with
    | none =>
      refine ⟨vs, by simp only [validatorsOf, hs]; exact h1, fun n v => ?_⟩
      rw [h2]
      simp [hs]
    | some n0 =>
      have hh := h s List.mem_cons_self (by rw [hs]; simp)
      cases hv : get s.metas .validator with
      | none =>
        refine ⟨vs, by simp only [validatorsOf, hs, createValidator, hv, h1]; rfl, fun n v => ?_⟩
        rw [h2]
        simp [hv]
      | some v0 =>
        by_cases hsent : W.sentinel v0 = true
        · refine ⟨vs, by simp only [validatorsOf, hs, createValidator, hv, h1, hsent, if_true]; rfl, fun n v => ?_⟩
          rw [h2]
          constructor
          · rintro ⟨s', hs', hx⟩; exact ⟨s', List.mem_cons_of_mem _ hs', hx⟩
          · rintro ⟨s', hs', hx⟩
            rcases List.mem_cons.1 hs' with rfl | hs'
            · rw [hv] at hx; obtain ⟨_, e, e'⟩ := hx; injection e with e; rw [e] at hsent; rw [hsent] at e'; cases e'
            · exact ⟨s', hs', hx⟩
        · have hfn : M.isFunction v0 = true := (hh v0 hv).resolve_left hsent
          refine ⟨(n0, v0) :: vs, by simp only [validatorsOf, hs, createValidator, hv, h1, hsent, hfn, if_true, if_false, Bool.false_eq_true]; rfl, fun n v => ?_⟩
          rw [List.mem_cons, h2]
          constructor
          · rintro (e | ⟨s', hs', hx⟩)
            · obtain ⟨rfl, rfl⟩ := Prod.mk.inj e
              exact ⟨s, List.mem_cons_self, hs, hv, by simpa using hsent⟩
            · exact ⟨s', List.mem_cons_of_mem _ hs', hx⟩
          · rintro ⟨s', hs', hx⟩
            rcases List.mem_cons.1 hs' with rfl | hs'
            · left
              rw [hs, hv] at hx
              obtain ⟨e1, e2, _⟩ := hx
              injection e1 with e1; injection e2 with e2
              rw [e1, e2]
            · exact .inr ⟨s', hs', hx⟩

/-- C177 (partial): missing: lists of validators, and specs from which no field can be made (see C174). Otherwise, for distinct names, the model has exactly the fields of the base class and of the selected specs with a name, the latter as `create_field` makes them, and the validators of the base class and of those specs. -/
theorem C177_create_model_partial (W : Values ν) (M : More ν) (P : Key → Bool) (nameOf : Spec ν τ → Option κ) (base : ModelClass κ ν τ) (hb : base.fields.WF)
    (specs : List (Spec ν τ)) (hn : (specs.filterMap nameOf).Nodup)
    (hf : ∀ s ∈ specs, nameOf s ≠ none → ∃ f, createField W M P s = .ok f)
    (hv : ∀ s ∈ specs, nameOf s ≠ none → ∀ v, get s.metas .validator = some v → W.sentinel v = true ∨ M.isFunction v = true) :
    ∃ m, createModel W M P nameOf base specs = .ok m ∧
      (∀ n, n ∈ m.fields.keys ↔ n ∈ base.fields.keys ∨ ∃ s ∈ specs, nameOf s = some n) ∧
      (∀ s ∈ specs, ∀ n f, nameOf s = some n → createField W M P s = .ok f → m.fields.get? n = some f) ∧
      (∀ n, (¬ ∃ s ∈ specs, nameOf s = some n) → m.fields.get? n = base.fields.get? n) ∧
      (∀ n v, (n, v) ∈ m.validators ↔ (n, v) ∈ base.validators ∨ ∃ s ∈ specs, nameOf s = some n ∧ get s.metas .validator = some v ∧ W.sentinel v = false) := by
  obtain ⟨d, h1, hw, h2, h3⟩ := fieldsOf_ok W M P nameOf specs [] hn hf
  obtain ⟨vs, h4, h5⟩ := validatorsOf_ok W M nameOf specs hv
  have wd : d.WF := hw (by simp [Dict.WF, Dict.keys])
  have hdn : ∀ n, (¬ ∃ s ∈ specs, nameOf s = some n) → d.get? n = none := by
    intro n hx
    rw [h3 n (fun hm => hx (by simpa using List.mem_filterMap.1 hm))]
    rfl
  have hds : ∀ n, (∃ s ∈ specs, nameOf s = some n) → ∃ f, d.get? n = some f := by
    rintro n ⟨s, hs, hsn⟩
    obtain ⟨f, hf'⟩ := hf s hs (by rw [hsn]; simp)
    exact ⟨f, h2 s hs n f hsn hf'⟩
  refine ⟨⟨base.fields.update d, base.validators ++ vs⟩, by simp only [createModel, h1, h4], ?_, ?_, ?_, ?_⟩
  · intro n
    simp only
    rw [Dict.mem_keys_update]
    constructor
    · rintro (h | h)
      · exact .inl h
      · right
        by_cases hx : ∃ s ∈ specs, nameOf s = some n
        · exact hx
        · have := (Dict.get?_isSome_iff _ _).2 h
          rw [hdn n hx] at this; cases this
    · rintro (h | h)
      · exact .inl h
      · obtain ⟨f, hf'⟩ := hds n h
        exact .inr ((Dict.get?_isSome_iff _ _).1 (by rw [hf']; rfl))
  · intro s hs n f hsn hf'
    simp only
    rw [Dict.get?_update wd, h2 s hs n f hsn hf']; rfl
  · intro n hx
    simp only
    rw [Dict.get?_update wd, hdn n hx]; rfl
  · intro n v
    simp only [List.mem_append, h5]

example : createModel vals more noParam (fun s => get s.metas .name) (⟨[(.num 9, ⟨.base 4, none, none, [], none⟩)], []⟩ : ModelClass V V Nat)
      [⟨some 0, [(.name, .num 1), (.validator, .fn 2)]⟩, ⟨some 1, []⟩, ⟨some 2, [(.name, .num 3), (.nullable, .true_)]⟩] =
    .ok ⟨[(.num 9, ⟨.base 4, none, none, [], none⟩), (.num 1, ⟨.base 0, none, none, [], some [(.name, .num 1)]⟩), (.num 3, ⟨.optional (.base 2), some .none, none, [], some [(.name, .num 3)]⟩)], [(.num 1, .fn 2)]⟩ := by
  rfl

theorem createField_error {W : Values ν} {M : More ν} {P : Key → Bool} {s : Spec ν τ} {e : Exc} (h : createField W M P s = .error e) : e = .typeError := by
  unfold createField at h
  split at h
  · injection h with h; exact h.symm
  · cases h

theorem createValidator_error {W : Values ν} {M : More ν} {s : Spec ν τ} {e : Exc} (h : createValidator W M s = .error e) : e = .typeError := by
  unfold createValidator at h
  split at h
  · cases h
  · split at h
    · cases h
    · split at h
      · cases h
      · injection h with h; exact h.symm

theorem createValidator_ok {W : Values ν} {M : More ν} {s : Spec ν τ} {o : Option ν} (h : createValidator W M s = .ok o) (v : ν) (hv : get s.metas .validator = some v) :
    W.sentinel v = true ∨ M.isFunction v = true := by
  unfold createValidator at h
  rw [hv] at h
  simp only at h
  split at h
  · exact .inl (by assumption)
  · split at h
    · exact .inr (by assumption)
    · cases h

theorem fieldsOf_cases (W : Values ν) (M : More ν) (P : Key → Bool) (nameOf : Spec ν τ → Option κ) : ∀ (specs : List (Spec ν τ)) (d : Dict κ (FieldInfo ν τ)),
    (∀ e, fieldsOf W M P nameOf specs d = .error e → e = .typeError) ∧
      (∀ d', fieldsOf W M P nameOf specs d = .ok d' → ∀ s ∈ specs, nameOf s ≠ none → ∃ f, createField W M P s = .ok f)
  | [], d => ⟨fun e h => (by cases h), fun d' h s hs => (by cases hs)⟩
  | s :: rest, d => by
    cases hname : nameOf s with
    | none =>
      obtain ⟨i1, i2⟩ := fieldsOf_cases W M P nameOf rest d
      simp only [fieldsOf, hname]
      refine ⟨i1, fun d' h t ht hn => ?_⟩
      rcases List.mem_cons.1 ht with ht | ht
      · rw [ht] at hn; exact absurd hname hn
      · exact i2 d' h t ht hn
    | some n =>
      cases hf : createField W M P s with
      | error e =>
        simp only [fieldsOf, hname, hf]
        refine ⟨fun e' h => ?_, fun d' h => by cases h⟩
        injection h with h
        rw [← h]; exact createField_error hf
      | ok f =>
        obtain ⟨i1, i2⟩ := fieldsOf_cases W M P nameOf rest (d.set n f)
        simp only [fieldsOf, hname, hf]
        refine ⟨i1, fun d' h t ht hn => ?_⟩
        rcases List.mem_cons.1 ht with ht | ht
        · rw [ht]; exact ⟨f, hf⟩
        · exact i2 d' h t ht hn

theorem validatorsOf_cases (W : Values ν) (M : More ν) (nameOf : Spec ν τ → Option κ) : ∀ specs : List (Spec ν τ),
    (∀ e, validatorsOf W M nameOf specs = .error e → e = .typeError) ∧
      (∀ vs, validatorsOf W M nameOf specs = .ok vs → ∀ s ∈ specs, nameOf s ≠ none → ∀ v, get s.metas .validator = some v → W.sentinel v = true ∨ M.isFunction v = true)
  | [] => ⟨fun e h => (by cases h), fun vs h s hs => (by cases hs)⟩
  | s :: rest => by
    obtain ⟨i1, i2⟩ := validatorsOf_cases W M nameOf rest
    cases hname : nameOf s with
    | none =>
      simp only [validatorsOf, hname]
      refine ⟨i1, fun vs h t ht hn => ?_⟩
      rcases List.mem_cons.1 ht with ht | ht
      · rw [ht] at hn; exact absurd hname hn
      · exact i2 vs h t ht hn
    | some n =>
      cases hv : createValidator W M s with
      | error e =>
        simp only [validatorsOf, hname, hv]
        refine ⟨fun e' h => ?_, fun vs h => by cases h⟩
        injection h with h
        rw [← h]; exact createValidator_error hv
      | ok o =>
        cases hr : validatorsOf W M nameOf rest with
        | error e =>
          simp only [validatorsOf, hname, hv, hr]
          refine ⟨fun e' h => ?_, fun vs h => by cases h⟩
          injection h with h
          rw [← h]; exact i1 e hr
        | ok ws =>
          simp only [validatorsOf, hname, hv, hr]
          refine ⟨fun e' h => (by cases h), fun vs h t ht hn => ?_⟩
          rcases List.mem_cons.1 ht with ht | ht
          · rw [ht]; exact createValidator_ok hv
          · exact i2 ws hr t ht hn

/-- C177, exactly: for distinct names a model can be made if and only if a field can be made from every named spec (see C174) and no named spec has a validator other than one function or a
sentinel; otherwise `TypeError` is raised. -/
theorem C177_exact_partial (W : Values ν) (M : More ν) (P : Key → Bool) (nameOf : Spec ν τ → Option κ) (base : ModelClass κ ν τ) (hb : base.fields.WF)
    (specs : List (Spec ν τ)) (hn : (specs.filterMap nameOf).Nodup) :
    ((∃ m, createModel W M P nameOf base specs = .ok m) ↔ ∀ s ∈ specs, nameOf s ≠ none → (∃ f, createField W M P s = .ok f) ∧
      ∀ v, get s.metas .validator = some v → W.sentinel v = true ∨ M.isFunction v = true) ∧
    ∀ e, createModel W M P nameOf base specs = .error e → e = .typeError := by
  obtain ⟨f1, f2⟩ := fieldsOf_cases W M P nameOf specs []
  obtain ⟨v1, v2⟩ := validatorsOf_cases W M nameOf specs
  refine ⟨⟨?_, fun h => ?_⟩, ?_⟩
  · rintro ⟨m, hm⟩ s hs hsn
    cases hf : fieldsOf W M P nameOf specs [] with
    | error e => simp only [createModel, hf] at hm; cases hm
    | ok d =>
      cases hv : validatorsOf W M nameOf specs with
      | error e => simp only [createModel, hf, hv] at hm; cases hm
      | ok vs => exact ⟨f2 d hf s hs hsn, v2 vs hv s hs hsn⟩
  · obtain ⟨m, hm, _⟩ := C177_create_model_partial W M P nameOf base hb specs hn (fun s hs hx => (h s hs hx).1) (fun s hs hx => (h s hs hx).2)
    exact ⟨m, hm⟩
  · intro e he
    cases hf : fieldsOf W M P nameOf specs [] with
    | error e' =>
      simp only [createModel, hf] at he
      injection he with he
      rw [← he]; exact f1 e' hf
    | ok d =>
      cases hv : validatorsOf W M nameOf specs with
      | error e' =>
        simp only [createModel, hf, hv] at he
        injection he with he
        rw [← he]; exact v1 e' hv
      | ok vs => simp only [createModel, hf, hv] at he; cases he

example : createModel vals more noParam (fun s => get s.metas .name) (⟨[], []⟩ : ModelClass V V Nat) [⟨some 0, [(.validator, .fns 2)]⟩, ⟨some 0, [(.name, .num 1), (.validator, .fn 2)]⟩] =
    .ok ⟨[(.num 1, ⟨.base 0, none, none, [], some [(.name, .num 1)]⟩)], [(.num 1, .fn 2)]⟩ := by rfl

end Verif.Field
