import Verif.Props.HashModelExact

set_option linter.unusedSectionVars false
set_option linter.unusedSimpArgs false
set_option linter.unusedVariables false

/-!
# A `HashableModel` restored from its JSON text: C269
-/

namespace Verif.HashModel

open Verif.HashDict

variable {α β σ γ : Type} [DecidableEq α]

/-- Object keys are read back as the keys that were written. -/
def KeysBack (A : Atoms α σ γ) (L : Loads α σ γ) : Prop := ∀ k s, A.key k = some s → L.key s = k

/-- What reading the JSON text of the value gives: the value is dumped, written and read. -/
def ReadBack (A : Atoms α σ γ) (L : Loads α σ γ) (le : σ → σ → Bool) (v w : Data α) : Prop :=
  ∃ d j, Dumped A.isModel v d ∧ toJson A le d = some j ∧ w = loads L j

theorem loads_lookup_insert (L : Loads α σ γ) (le : σ → σ → Bool) (s : σ) (r : Rep γ σ) (k : α) : ∀ x : Rep γ σ, (∀ s' ∈ repKeys x, L.key s' ≠ L.key s) →
    lookup k (loads L (insertKey le s r x)) = if L.key s = k then some (loads L r) else lookup k (loads L x) := by
  intro x
  induction x with
  | kcons k' r' t _ ih =>
    intro h
    simp only [insertKey]
    split
    · simp only [loads, lookup]
    · simp only [loads, lookup]
      rw [ih (fun s' hs => h s' (by simp [repKeys, hs]))]
      by_cases h1 : L.key k' = k
      · rw [if_pos h1, if_pos h1]
        have := h k' (by simp [repKeys])
        rw [if_neg (fun e => this (h1.trans e.symm))]
      · rw [if_neg h1, if_neg h1]
  | _ => intro h; simp only [insertKey, loads, lookup]

theorem keys_loads_insert (L : Loads α σ γ) (le : σ → σ → Bool) (s : σ) (r : Rep γ σ) (k : α) (x : Rep γ σ) (h : k ∈ keys (loads L (insertKey le s r x))) :
    k = L.key s ∨ k ∈ keys (loads L x) := by
  induction x with
  | kcons k' r' t _ ih =>
    simp only [insertKey] at h
    split at h
    · simpa [loads, keys] using h
    · simp only [loads, keys, List.mem_cons] at h ⊢
      rcases h with h | h
      · exact .inr (.inl h)
      · rcases ih h with h | h
        · exact .inl h
        · exact .inr (.inr h)
  | _ =>
    simp only [insertKey, loads, keys, List.mem_cons] at h
    exact .inl (h.resolve_right (by simp))

/-- The entries of a chain after writing and reading. -/
theorem lookup_chain (A : Atoms α σ γ) (L : Loads α σ γ) (hL : KeysBack A L) (le : σ → σ → Bool) : ∀ (e : Data α) (r : Rep γ σ), IsChain e → (keys e).Nodup → toJson A le e = some r →
    (∀ s ∈ repKeys r, L.key s ∈ keys e) ∧ (∀ k ∈ keys (loads L r), k ∈ keys e) ∧
      (∀ k, lookup k e = none → lookup k (loads L r) = none) ∧
      (∀ k w, lookup k e = some w → ∃ j, toJson A le w = some j ∧ lookup k (loads L r) = some (loads L j)) := by
  intro e
  induction e with
  | nil =>
    intro r hc hn h
    simp only [toJson, Option.some.injEq] at h
    subst h
    exact ⟨by simp [repKeys], by simp [loads, keys], fun _ _ => rfl, fun _ _ h => by simp [lookup] at h⟩
  | dcons k v t _ iht =>
    intro r hc hn h
    simp only [toJson, Option.bind_eq_some_iff, Option.map_eq_some_iff] at h
    obtain ⟨s, hs, jv, hv, jt, ht, rfl⟩ := h
    have hkey := hL k s hs
    rw [keys, List.nodup_cons] at hn
    obtain ⟨i1, i2, i3, i4⟩ := iht jt hc hn.2 ht
    have hne : ∀ s' ∈ repKeys jt, L.key s' ≠ L.key s := by
      intro s' hs' e
      rw [hkey] at e
      exact hn.1 (e ▸ i1 s' hs')
    refine ⟨?_, ?_, ?_, ?_⟩
    · intro s' hs'
      rw [repKeys_insert] at hs'
      rw [keys, List.mem_cons]
      rcases hs' with rfl | hs'
      · exact .inl hkey
      · exact .inr (i1 s' hs')
    · intro k' hk'
      rw [keys, List.mem_cons]
      rcases keys_loads_insert L le s jv k' jt hk' with h | h
      · exact .inl (h.trans hkey)
      · exact .inr (i2 k' h)
    · intro k' hk'
      rw [loads_lookup_insert L le s jv k' jt hne, hkey]
      rw [lookup] at hk'
      by_cases h1 : k = k'
      · rw [if_pos h1] at hk'; cases hk'
      · rw [if_neg h1] at hk' ⊢
        exact i3 k' hk'
    · intro k' w hw
      rw [loads_lookup_insert L le s jv k' jt hne, hkey]
      rw [lookup] at hw
      by_cases h1 : k = k'
      · rw [if_pos h1] at hw ⊢
        cases hw
        exact ⟨jv, hv, rfl⟩
      · rw [if_neg h1] at hw ⊢
        exact i4 k' w hw
  | _ => intro r hc; exact hc.elim

theorem isChain_dumped {isModel : α → Bool} {x y : Data α} (h : Dumped isModel x y) : IsChain x → IsChain y := by
  induction h with
  | nil => exact fun h => h
  | dcons _ _ _ ih => exact fun h => ih h
  | _ => exact fun h => h.elim

theorem isChain_dropSent (A : Atoms α σ γ) : ∀ x : Data α, IsChain x → IsChain (dropSent A x) := by
  intro x
  induction x with
  | nil => exact fun h => h
  | dcons k v t _ ih =>
    intro h
    simp only [dropSent]
    split
    · exact ih h
    · exact ih h
  | _ => exact fun h => h.elim

/-- C269: `from_json(m.to_json())` has the fields of `m`.  This fails for unset fields (another default comes back); a nested model with an unset field has no JSON text at all; and in python mode the text is always refused. -/
theorem C269_violation :
    (modelJson demoAtoms natLe {} (.dcons (.str 1) (.atom .unset) .nil) = .ok (.node 0 .nil) ∧
      fromJson (α := At) ⟨[(.str 1, some (.atom (.num 30)))], fun _ v => some v⟩ demoLoads .json (.node 0 .nil) = .ok (.dcons (.str 1) (.atom (.num 30)) .nil)) ∧
    modelJson demoAtoms natLe {} (.dcons (.str 1) (.coll .model (.dcons (.str 2) (.atom .unset) .nil)) .nil) = .error .typeError ∧
    ∀ (C : Class At) (j : Rep At Nat), fromJson C demoLoads .python j = .error .validation := by
  refine ⟨by decide, by decide, fun _ _ => rfl⟩

/-- C269 (partial): the mode.  Reading a JSON text succeeds in json mode only: python mode refuses every text with a validation error, any other mode with `ValueError`, whatever the text and the class are. -/
theorem C269_mode_partial (C : Class α) (L : Loads α σ γ) (mode : Mode) (j : Rep γ σ) :
    ((∃ x, fromJson C L mode j = .ok x) → mode = .json) ∧ (mode = .python → fromJson C L mode j = .error .validation) ∧ (mode = .other → fromJson C L mode j = .error .valueError) := by
  cases mode with
  | python => exact ⟨fun ⟨_, h⟩ => (nomatch h), fun _ => rfl, fun h => (nomatch h)⟩
  | json => exact ⟨fun _ => rfl, fun h => (nomatch h), fun h => (nomatch h)⟩
  | other => exact ⟨fun ⟨_, h⟩ => (nomatch h), fun h => (nomatch h), fun _ => rfl⟩

/-- C269 (partial): missing: fields that hold a sentinel other than their default, and models without a JSON text.  If validation gives every field value back from what its JSON text reads as (whatever it reads as: dates, paths and sets
read as strings and lists), and fields holding a sentinel have it as default, then `from_json(m.to_json())` has exactly the fields of `m`, in their order. -/
theorem C269_round_trip_partial (A : Atoms α σ γ) (L : Loads α σ γ) (hL : KeysBack A L) (le : σ → σ → Bool) (C : Class α) (hC : (C.fields.map Prod.fst).Nodup)
    (x : Data α) (j : Rep γ σ) (hx : Instance C x) (h : modelJson A le {} x = .ok j)
    (hv : ∀ k v w, Has k v x → (∀ a, v = .atom a → A.sent a = false) → ReadBack A L le v w → C.validate k w = some v)
    (hs : ∀ k a, Has k (.atom a) x → A.sent a = true → (k, some (.atom a)) ∈ C.fields) :
    fromJson C L .json j = .ok x := by
  have hxn : (keys x).Nodup := by rw [hx.2]; exact hC
  simp only [modelJson, toDictPy, select_all] at h
  cases hy : dump A x with
  | none => rw [hy] at h; simp only at h; cases h
  | some y =>
    rw [hy] at h
    simp only at h
    have hxy : Dumped A.isModel x y := (dump_iff A _ _).1 hy
    cases hr : toJson A le (.coll .dict (dropSent A y)) with
    | none => rw [hr] at h; simp only at h; cases h
    | some j' =>
      rw [hr] at h
      simp only [Except.ok.injEq] at h
      subst h
      simp only [toJson, Option.map_eq_some_iff] at hr
      obtain ⟨r, hr, rfl⟩ := hr
      have hyn : (keys y).Nodup := by rw [keys_dumped hxy]; exact hxn
      have hsub : (keys (dropSent A y)).Sublist (keys x) := by
        have := keys_dropSent A y
        rwa [keys_dumped hxy] at this
      have hen : (keys (dropSent A y)).Nodup := hxn.sublist hsub
      obtain ⟨_, c2, c3, c4⟩ := lookup_chain A L hL le (dropSent A y) r (isChain_dropSent A y (isChain_dumped hxy hx.1)) hen hr
      have hval : validateFields C (loads L r) C.fields = some x := by
        refine validateFields_ok C _ C.fields x hx.1 hx.2 hxn (fun f hf v hfv => ?_)
        obtain ⟨w, hw⟩ : ∃ w, Has f.1 w y := keys_has (by rw [keys_dumped hxy]; exact has_keys hfv)
        obtain ⟨v', hv', hd'⟩ := (has_dumped hxy f.1 w).1 hw
        have hvv : v' = v := by
          have a1 := (lookup_has x f.1 v' hxn).2 hv'
          have a2 := (lookup_has x f.1 v hxn).2 hfv
          rw [a1] at a2; exact Option.some.inj a2
        subst hvv
        unfold fieldValue
        by_cases hsent : isSent A w = true
        · have hnone : lookup f.1 (dropSent A y) = none := by
            cases hl : lookup f.1 (dropSent A y) with
            | none => rfl
            | some u =>
              exfalso
              obtain ⟨hu, hu'⟩ := (has_dropSent A f.1 u y).1 ((lookup_has _ _ _ hen).1 hl)
              have a1 := (lookup_has y f.1 u hyn).2 hu
              have a2 := (lookup_has y f.1 w hyn).2 hw
              rw [a1] at a2
              rw [Option.some.inj a2, hsent] at hu'
              cases hu'
          rw [c3 _ hnone]
          cases w with
          | atom a =>
            cases hd' with
            | atom =>
              have hm := hs f.1 a hfv hsent
              have key : ∀ (l : List (α × Option (Data α))), (l.map Prod.fst).Nodup → ∀ k o o', (k, o) ∈ l → (k, o') ∈ l → o = o' := by
                intro l
                induction l with
                | nil => intro _ _ _ _ h; simp at h
                | cons q l ih =>
                  intro hn k o o' ho ho'
                  simp only [List.map_cons, List.nodup_cons] at hn
                  rcases List.mem_cons.1 ho with rfl | ho <;> rcases List.mem_cons.1 ho' with e | ho'
                  · exact (Prod.mk.inj e).2.symm
                  · exact absurd (List.mem_map_of_mem (f := Prod.fst) ho') hn.1
                  · rw [← e] at hn; exact absurd (List.mem_map_of_mem (f := Prod.fst) ho) hn.1
                  · exact ih hn.2 k o o' ho ho'
              exact key C.fields hC f.1 f.2 _ hf hm
          | _ => simp [isSent] at hsent
        · have hlook : lookup f.1 (dropSent A y) = some w := (lookup_has _ _ _ hen).2 ((has_dropSent A f.1 w y).2 ⟨hw, by simpa using hsent⟩)
          obtain ⟨jw, hjw, hlk⟩ := c4 _ _ hlook
          rw [hlk]
          refine hv f.1 v' _ hfv ?_ ⟨w, jw, hd', hjw, rfl⟩
          rintro a rfl
          cases hd' with
          | atom => simpa [isSent] using hsent
      simp only [fromJson, loads, if_true, fromDict]
      rw [if_pos (keysIn_iff _ _ (fun k hk => by rw [← hx.2]; exact hsub.subset (c2 k hk))), hval]

/-- A model with an unset field (its default) and a list field. -/
example : modelJson demoAtoms natLe {} (.dcons (.str 2) (.coll .list (.lcons (.atom (.num 7)) .nil)) (.dcons (.str 1) (.atom .unset) .nil)) =
      .ok (.node 0 (.kcons 2 (.node 1 (.cons (.leaf (.num 7)) .nil)) .nil)) ∧
    fromJson (α := At) ⟨[(.str 2, none), (.str 1, some (.atom .unset))], fun _ v => some v⟩ demoLoads .json (.node 0 (.kcons 2 (.node 1 (.cons (.leaf (.num 7)) .nil)) .nil)) =
      .ok (.dcons (.str 2) (.coll .list (.lcons (.atom (.num 7)) .nil)) (.dcons (.str 1) (.atom .unset) .nil)) ∧
    KeysBack demoAtoms demoLoads := by
  refine ⟨by decide, by decide, ?_⟩
  intro k s h
  cases k <;> simp [demoAtoms, At.key, demoLoads] at h ⊢ <;> exact h.symm ▸ rfl

end Verif.HashModel
