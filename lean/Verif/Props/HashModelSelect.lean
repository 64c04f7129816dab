import Verif.Props.HashModelJson

/-!
# C166: exactly when the json mode of `to_dict` shows the fields asked for
-/

set_option linter.unusedSectionVars false
set_option linter.unusedSimpArgs false
set_option linter.unusedVariables false

namespace Verif.HashModel

open Verif.HashDict

variable {α σ γ : Type} [DecidableEq α]

/-- The model has a field of this name that holds no sentinel. -/
def Held (A : Atoms α σ γ) (fields : Data α) (k : α) : Prop := ∃ v, Has k v fields ∧ ∀ a, v = .atom a → A.sent a = false

theorem keys_loads (L : Loads α σ γ) (k : α) : ∀ r : Rep γ σ, k ∈ keys (loads L r) ↔ ∃ s ∈ repKeys r, L.key s = k := by
  intro r
  induction r with
  | kcons s v t _ ih => simp only [loads, keys, repKeys, List.mem_cons, ih]; constructor
                        · rintro (h | ⟨s', h1, h2⟩)
                          · exact ⟨s, .inl rfl, h.symm⟩
                          · exact ⟨s', .inr h1, h2⟩
                        · rintro ⟨s', h1 | h1, h2⟩
                          · exact .inl (by rw [← h2, h1])
                          · exact .inr ⟨s', h1, h2⟩
  | _ => simp [loads, keys, repKeys]

theorem keys_toJson (A : Atoms α σ γ) (L : Loads α σ γ) (hL : KeysBack A L) (le : σ → σ → Bool) : ∀ (x : Data α), IsChain x → ∀ r, toJson A le x = some r →
    ∀ k, (∃ s ∈ repKeys r, L.key s = k) ↔ k ∈ keys x := by
  intro x
  induction x with
  | nil => intro _ r h k; simp only [toJson, Option.some.injEq] at h; subst h; simp [repKeys, keys]
  | dcons k0 v t _ ih =>
    intro hc r h k
    simp only [toJson, Option.bind_eq_some_iff, Option.map_eq_some_iff] at h
    obtain ⟨k', hk', v', _, t', ht', rfl⟩ := h
    have e := ih hc t' ht' k
    simp only [keys, List.mem_cons, ← e]
    constructor
    · rintro ⟨s, hs, he⟩
      rcases (repKeys_insert le k' v' t' s).1 hs with rfl | hs
      · exact .inl (by rw [← he]; exact hL _ _ hk')
      · exact .inr ⟨s, hs, he⟩
    · rintro (h | ⟨s, hs, he⟩)
      · exact ⟨k', (repKeys_insert le k' v' t' k').2 (.inl rfl), by rw [h]; exact hL _ _ hk'⟩
      · exact ⟨s, (repKeys_insert le k' v' t' s).2 (.inr hs), he⟩
  | _ => intro hc; exact hc.elim

/-- **C166** (partial).  In json mode `to_dict` shows exactly the fields that hold no sentinel, whatever `include` and `exclude` ask for. -/
theorem C166_json_partial (A : Atoms α σ γ) (L : Loads α σ γ) (hL : KeysBack A L) (le : σ → σ → Bool) (sel : Select α) (fields d : Data α) (hc : IsChain fields)
    (h : toDict A L le .json sel fields = .ok d) : ∃ e, d = .coll .dict e ∧ ∀ k, k ∈ keys e ↔ Held A fields k := by
  simp only [toDict, modelJson, toDictPy, select_all] at h
  cases hd : dump A fields with
  | none => rw [hd] at h; cases h
  | some y =>
    rw [hd] at h
    simp only at h
    have hD := (dump_iff A _ _).1 hd
    have hy := isChain_dropSent A y (isChain_dumped hD hc)
    simp only [toJson] at h
    cases hj : toJson A le (dropSent A y) with
    | none => rw [hj] at h; cases h
    | some r =>
      rw [hj] at h
      simp only [Option.map_some, Except.map, Except.ok.injEq, loads, if_true] at h
      refine ⟨loads L r, h.symm, fun k => ?_⟩
      rw [keys_loads, keys_toJson A L hL le _ hy r hj]
      constructor
      · intro hk
        obtain ⟨w, hw⟩ := keys_has hk
        rw [has_dropSent, has_dumped hD] at hw
        obtain ⟨⟨v, hv, hvw⟩, hs⟩ := hw
        refine ⟨v, hv, fun a ha => ?_⟩
        subst ha
        cases hvw
        exact hs
      · rintro ⟨v, hv, hs⟩
        have : ∃ w, Has k w y ∧ Dumped A.isModel v w := by
          clear hy hj h hd
          induction hD with
          | @dcons k0 v0 v1 t t' hvv ht _ ih =>
            cases hv with
            | head => exact ⟨v1, .head, hvv⟩
            | tail hv =>
              obtain ⟨w, hw, hvw⟩ := ih hc hv
              exact ⟨w, .tail hw, hvw⟩
          | _ => cases hv
        obtain ⟨w, hw, hvw⟩ := this
        refine has_keys ((has_dropSent A k w y).2 ⟨hw, ?_⟩)
        cases hvw with
        | atom a => exact hs a rfl
        | _ => rfl

/-- **C166** (partial), the exact condition: `to_dict(mode="json", include=..., exclude=...)` contains exactly the fields asked for that hold no sentinel iff every field that holds no sentinel is asked for. -/
theorem C166_exact_partial (A : Atoms α σ γ) (L : Loads α σ γ) (hL : KeysBack A L) (le : σ → σ → Bool) (sel : Select α) (fields e : Data α) (hc : IsChain fields)
    (h : toDict A L le .json sel fields = .ok (.coll .dict e)) : (∀ k, k ∈ keys e ↔ Wanted sel k ∧ Held A fields k) ↔ ∀ k, Held A fields k → Wanted sel k := by
  obtain ⟨e', he, hk⟩ := C166_json_partial A L hL le sel fields _ hc h
  injection he with _ he
  subst he
  constructor
  · intro hx k hh; exact ((hx k).1 ((hk k).2 hh)).1
  · intro hx k
    rw [hk k]
    exact ⟨fun hh => ⟨hx k hh, hh⟩, fun hh => hh.2⟩

example : toDict demoAtoms demoLoads natLe .json { incl := some [.str 2, .str 3] } (.dcons (.str 3) (.atom (.num 7)) (.dcons (.str 1) (.atom .unset) (.dcons (.str 2) (.atom (.num 8)) .nil))) =
    .ok (.coll .dict (.dcons (.str 2) (.atom (.num 8)) (.dcons (.str 3) (.atom (.num 7)) .nil))) := by decide

end Verif.HashModel
