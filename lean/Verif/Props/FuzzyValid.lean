import Verif.Props.FuzzyDoc

set_option linter.unusedSectionVars false
set_option linter.unusedSimpArgs false
set_option linter.unusedVariables false

/-!
# `fuzzy_json` on texts that are valid JSON (C230)
-/

namespace Verif.FuzzyJson

theorem structured_returns (v : Json.J) (h : Structured (shape v)) : Returns v (shape v) := by
  cases v with
  | token t ht => exact h.elim
  | str s => exact h.elim
  | obj l => exact .dict l
  | arr l =>
    have key : ∀ l : List Json.J, (∀ x ∈ l.map itemDict, x ≠ none) → ∃ ls : List (List (Str × Json.J)), l = ls.map .obj ∧ l.map itemDict = ls.map fun l => some (.obj l) := by
      intro l
      induction l with
      | nil => intro _; exact ⟨[], rfl, rfl⟩
      | cons x l ih =>
        intro hx
        obtain ⟨ls, h1, h2⟩ := ih (fun y hy => hx y (by simp only [List.map_cons, List.mem_cons]; exact .inr hy))
        have hx0 := hx (itemDict x) (by simp)
        cases x with
        | obj l0 => exact ⟨l0 :: ls, by rw [h1]; rfl, by rw [List.map_cons, h2]; rfl⟩
        | token t ht => exact absurd rfl hx0
        | str s => exact absurd rfl hx0
        | arr l0 => exact absurd rfl hx0
    obtain ⟨ls, h1, h2⟩ := key l h
    simp only [shape]
    rw [h2, h1]
    exact .list ls

/-- **C230.**  A text that is valid JSON is read as it is: an object or a list of objects is returned, anything else is refused with `TypeError`. -/
theorem C230_valid_json (s : Str) (v : Json.J) (hl : Json.loads s = some v) :
    (∀ j, Returns v j → fuzzyRead s = .ok j) ∧ ((∀ j, ¬ Returns v j) → fuzzyRead s = .error .typeError) := by
  have hb : ∀ s : Str, s.all isSpace = true → loadsJson s = none := by
    intro s hs
    unfold loadsJson Json.loads
    rw [readVal_only_white _ _ (fun c hc => (isSpace_iff c).1 (List.all_eq_true.1 hs c hc))]
    rfl
  have hlj : loadsJson s = some (shape v) := by unfold loadsJson; rw [hl]; rfl
  have h := C71_plain_json loadsJson hb s (shape v) hlj
  constructor
  · intro j hj
    obtain ⟨h1, h2⟩ := returns_shape hj
    rw [← h1] at h2 ⊢
    exact h.1 h2
  · intro hn
    exact h.2 (fun hs => hn _ (structured_returns v hs))

/-- A number: its text is valid JSON, and not something to return. -/
example : ∃ v, Json.loads "12".toList = some v ∧ ∀ j, ¬ Returns v j := ⟨.token ['1', '2'] (by decide), by rfl, fun j h => by cases h⟩

def wrongType : Except Exc (J Json.J) → Bool
  | .error .typeError => true
  | _ => false

example : wrongType (fuzzyRead "[{}, 1]".toList) = true ∧ wrongType (fuzzyRead "\"a\"".toList) = true := by decide +kernel

end Verif.FuzzyJson
