import Verif.Props.HashModelJson

set_option linter.unusedSectionVars false
set_option linter.unusedSimpArgs false
set_option linter.unusedVariables false

/-!
# When exactly a `HashableModel` is restored from its JSON text: C269
-/

namespace Verif.HashModel

open Verif.HashDict

variable {α β σ γ : Type} [DecidableEq α]

theorem validateFields_get (C : Class α) (d : Data α) : ∀ (fs : List (α × Option (Data α))) (x : Data α), (fs.map Prod.fst).Nodup → validateFields C d fs = some x →
    ∀ f ∈ fs, ∀ v, Has f.1 v x → fieldValue C d f = some v := by
  intro fs
  induction fs with
  | nil => intro x _ _ f hf; cases hf
  | cons g fs ih =>
    intro x hn h f hf v hv
    simp only [validateFields, Option.bind_eq_some_iff, Option.map_eq_some_iff] at h
    obtain ⟨u, hu, t, ht, rfl⟩ := h
    simp only [List.map_cons, List.nodup_cons] at hn
    have hk : keys t = fs.map Prod.fst := by
      clear ih hu hf hv hn
      induction fs generalizing t with
      | nil => simp only [validateFields, Option.some.injEq] at ht; subst ht; rfl
      | cons q fs ih =>
        simp only [validateFields, Option.bind_eq_some_iff, Option.map_eq_some_iff] at ht
        obtain ⟨_, _, t', ht', rfl⟩ := ht
        simp only [keys, List.map_cons, ih t' ht']
    rcases List.mem_cons.1 hf with rfl | hf
    · cases hv with
      | head => exact hu
      | tail hv => exact absurd (by rw [← hk]; exact has_keys hv) hn.1
    · refine ih t hn.2 ht f hf v ?_
      generalize hq : f.1 = q at hv
      cases hv with
      | head => exact absurd (by rw [hq.symm]; exact List.mem_map_of_mem (f := Prod.fst) hf) hn.1
      | tail hv => exact hv

/-- What `from_json` sees of a field of the model that was written: nothing for a field that holds a sentinel, else what the JSON text of the value reads as. -/
theorem fieldValue_back (A : Atoms α σ γ) (L : Loads α σ γ) (hL : KeysBack A L) (le : σ → σ → Bool) (C : Class α) (hC : (C.fields.map Prod.fst).Nodup)
    (x : Data α) (j : Rep γ σ) (hx : Instance C x) (h : modelJson A le {} x = .ok j) :
    ∃ r : Rep γ σ, j = .node 0 r ∧ keysIn (C.fields.map Prod.fst) (loads L r) = true ∧ ∀ f ∈ C.fields, ∀ v, Has f.1 v x →
      ((∃ a, v = .atom a ∧ A.sent a = true) ∧ fieldValue C (loads L r) f = f.2) ∨
      ((∀ a, v = .atom a → A.sent a = false) ∧ ∃ w, ReadBack A L le v w ∧ fieldValue C (loads L r) f = C.validate f.1 w) := by
  have hxn : (keys x).Nodup := by rw [hx.2]; exact hC
  simp only [modelJson, toDictPy, select_all] at h
  cases hy : dump A x with
  | none => rw [hy] at h; simp only at h; cases h
  | some y =>
    rw [hy] at h
    simp only at h
    have hxy : Dumped A.isModel x y := (dump_iff A _ _).1 hy
    cases hr : toJson A le (.coll .dict (dropSent A y)) with
    | none => rw [hr] at h; simp only at h; cases h
    | some j' =>
      rw [hr] at h
      simp only [Except.ok.injEq] at h
      subst h
      simp only [toJson, Option.map_eq_some_iff] at hr
      obtain ⟨r, hr, rfl⟩ := hr
      have hyn : (keys y).Nodup := by rw [keys_dumped hxy]; exact hxn
      have hsub : (keys (dropSent A y)).Sublist (keys x) := by
        have := keys_dropSent A y
        rwa [keys_dumped hxy] at this
      have hen : (keys (dropSent A y)).Nodup := hxn.sublist hsub
      obtain ⟨_, c2, c3, c4⟩ := lookup_chain A L hL le (dropSent A y) r (isChain_dropSent A y (isChain_dumped hxy hx.1)) hen hr
      refine ⟨r, rfl, keysIn_iff _ _ (fun k hk => by rw [← hx.2]; exact hsub.subset (c2 k hk)), fun f hf v hfv => ?_⟩
      obtain ⟨w, hw⟩ : ∃ w, Has f.1 w y := keys_has (by rw [keys_dumped hxy]; exact has_keys hfv)
      obtain ⟨v', hv', hd'⟩ := (has_dumped hxy f.1 w).1 hw
      have hvv : v' = v := by
        have a1 := (lookup_has x f.1 v' hxn).2 hv'
        have a2 := (lookup_has x f.1 v hxn).2 hfv
        rw [a1] at a2; exact Option.some.inj a2
      subst hvv
      unfold fieldValue
      by_cases hsent : isSent A w = true
      · left
        have hnone : lookup f.1 (dropSent A y) = none := by
          cases hl : lookup f.1 (dropSent A y) with
          | none => rfl
          | some u =>
            exfalso
            obtain ⟨hu, hu'⟩ := (has_dropSent A f.1 u y).1 ((lookup_has _ _ _ hen).1 hl)
            have a1 := (lookup_has y f.1 u hyn).2 hu
            have a2 := (lookup_has y f.1 w hyn).2 hw
            rw [a1] at a2
            rw [Option.some.inj a2, hsent] at hu'
            cases hu'
        rw [c3 _ hnone]
        refine ⟨?_, rfl⟩
        cases w with
        | atom a => cases hd' with
          | atom => exact ⟨a, rfl, hsent⟩
        | _ => simp [isSent] at hsent
      · right
        have hlook : lookup f.1 (dropSent A y) = some w := (lookup_has _ _ _ hen).2 ((has_dropSent A f.1 w y).2 ⟨hw, by simpa using hsent⟩)
        obtain ⟨jw, hjw, hlk⟩ := c4 _ _ hlook
        rw [hlk]
        refine ⟨?_, _, ⟨w, jw, hd', hjw, rfl⟩, rfl⟩
        rintro a rfl
        cases hd' with
        | atom => simpa [isSent] using hsent

theorem readBack_unique {A : Atoms α σ γ} {L : Loads α σ γ} {le : σ → σ → Bool} {v w w' : Data α} (h : ReadBack A L le v w) (h' : ReadBack A L le v w') : w = w' := by
  obtain ⟨d, j, hd, hj, rfl⟩ := h
  obtain ⟨d', j', hd', hj', rfl⟩ := h'
  have e := (dump_iff A v d).2 hd
  rw [(dump_iff A v d').2 hd'] at e
  cases e
  rw [hj] at hj'
  cases hj'
  rfl

/-- **C269, exactly.**  A model that has a JSON text is restored from it if and only if every field that holds a sentinel has this sentinel as its default, and validation gives every other field value
back from what its JSON text reads as.  (`C269_violation` has a model without a text, and a field whose default is another value.) -/
theorem C269_exact_partial (A : Atoms α σ γ) (L : Loads α σ γ) (hL : KeysBack A L) (le : σ → σ → Bool) (C : Class α) (hC : (C.fields.map Prod.fst).Nodup)
    (x : Data α) (j : Rep γ σ) (hx : Instance C x) (h : modelJson A le {} x = .ok j) :
    fromJson C L .json j = .ok x ↔
      (∀ k a, Has k (.atom a) x → A.sent a = true → (k, some (.atom a)) ∈ C.fields) ∧
      (∀ k v w, Has k v x → (∀ a, v = .atom a → A.sent a = false) → ReadBack A L le v w → C.validate k w = some v) := by
  refine ⟨fun hj => ?_, fun hc => C269_round_trip_partial A L hL le C hC x j hx h hc.2 hc.1⟩
  obtain ⟨r, rfl, hk, hf⟩ := fieldValue_back A L hL le C hC x j hx h
  have hval : validateFields C (loads L r) C.fields = some x := by
    simp only [fromJson, loads, if_true, fromDict, hk] at hj
    cases hv : validateFields C (loads L r) C.fields with
    | none => rw [hv] at hj; cases hj
    | some z => rw [hv] at hj; cases hj; rfl
  have field : ∀ k v, Has k v x → ∃ o, (k, o) ∈ C.fields := by
    intro k v hv
    have := has_keys hv
    rw [hx.2] at this
    obtain ⟨q, hq, rfl⟩ := List.mem_map.1 this
    exact ⟨q.2, hq⟩
  refine ⟨fun k a ha hs => ?_, fun k v w hv hns hrb => ?_⟩
  · obtain ⟨o, ho⟩ := field k _ ha
    have g := validateFields_get C _ C.fields x hC hval (k, o) ho _ ha
    rcases hf (k, o) ho _ ha with ⟨_, e⟩ | ⟨hns, _⟩
    · rw [g] at e
      rw [show o = some (.atom a) from e.symm] at ho; exact ho
    · rw [hns a rfl] at hs; cases hs
  · obtain ⟨o, ho⟩ := field k v hv
    have g := validateFields_get C _ C.fields x hC hval (k, o) ho v hv
    rcases hf (k, o) ho v hv with ⟨⟨a, e, hs⟩, _⟩ | ⟨_, w', hw', e⟩
    · rw [hns a e] at hs; cases hs
    · rw [readBack_unique hrb hw', ← g]; exact e.symm

end Verif.HashModel
