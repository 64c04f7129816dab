import Verif.Model.LndlOutput

/-!
# C235: reading the fields of a parsed output
-/

set_option linter.unusedSimpArgs false

namespace Verif.LndlOutput

variable {ν : Type}

/-- The names of the five attributes of the class. -/
def classFields : List String := ["fields", "lvars", "lacts", "actions", "raw_out_block"]

theorem slots_iff (k : String) : k ∈ slots ↔ k ∈ classFields := by simp [slots, classFields]

/-- The name is one that every output object has, whatever was parsed. -/
def Taken (o : Output ν) (k : String) : Prop := k ∈ o.own.keys ∨ k ∈ classFields

/-- C235 (partial).  For a name the class does not use, `output.name` is `output["name"]`: the field, or KeyError if there is none. -/
theorem C235_fields_partial (o : Output ν) (k : String) (h : ¬ Taken o k) :
    attr o k = getItem o k ∧ (∀ v, attr o k = .ok v ↔ o.fields.get? k = some v) ∧ (attr o k = .error .keyError ↔ k ∉ o.fields.keys) := by
  simp only [Taken, not_or, ← slots_iff] at h
  have h1 : o.own.get? k = none := (Dict.get?_eq_none_iff _ _).2 h.1
  have h2 : attr o k = getItem o k := by simp [attr, h1, fallback, h.2]
  rw [h2, ← Dict.get?_eq_none_iff]
  unfold getItem
  cases o.fields.get? k with
  | none => exact ⟨rfl, fun v => (by simp), by simp⟩
  | some w => exact ⟨rfl, fun v => (by simp), by simp⟩

/-- C235 (partial).  `hasattr` and `getattr` with a default fail with KeyError exactly for the names that are neither taken nor a field; otherwise `hasattr` is
True, and `getattr` ignores the default, iff the name is one of the object's own or a field and not one of the five of the class. -/
theorem C235_exact_partial (o : Output ν) (k : String) (dflt : ν) :
    (hasAttr o k = .error .keyError ↔ ¬ Taken o k ∧ k ∉ o.fields.keys) ∧
    (getattrDefault o k dflt = .error .keyError ↔ ¬ Taken o k ∧ k ∉ o.fields.keys) ∧
    (hasAttr o k = .ok true ↔ k ∈ o.own.keys ∨ (k ∉ classFields ∧ k ∈ o.fields.keys)) ∧
    (hasAttr o k = .ok false ↔ k ∉ o.own.keys ∧ k ∈ classFields) ∧
    (∀ v, getattrDefault o k dflt = .ok v ↔ attr o k = .ok v ∨ (k ∉ o.own.keys ∧ k ∈ classFields ∧ v = dflt)) := by
  unfold hasAttr getattrDefault attr fallback getItem Taken
  simp only [← slots_iff, ← Dict.get?_isSome_iff]
  cases h1 : o.own.get? k with
  | some v => simp [present, orDefault]
  | none =>
    by_cases h2 : k ∈ slots
    · simp [h2, present, orDefault]
      exact fun v => eq_comm
    · cases h3 : o.fields.get? k <;> simp [h2, present, orDefault]

/-- An output as parsed: its own attributes, and one field "report". -/
def sample : Output Nat := ⟨[("fields", 0), ("lvars", 1), ("lacts", 2), ("actions", 3), ("raw_out_block", 4)], [("report", 7), ("actions", 8)]⟩

/-- C235 (violation).  `hasattr` of a missing name raises KeyError, so does `getattr` with a default (and `copy.deepcopy`, which asks for `__deepcopy__`); a field
with the name of an attribute of the class cannot be read as an attribute. -/
theorem C235_missing_violation : hasAttr sample "summary" = .error .keyError ∧ getattrDefault sample "__deepcopy__" 0 = .error .keyError ∧
    attr sample "actions" = .ok 3 ∧ getItem sample "actions" = .ok 8 := by
  refine ⟨by rfl, by rfl, by rfl, by rfl⟩

/-- Non-vacuity: a field and a missing name. -/
example : ¬ Taken sample "report" ∧ attr sample "report" = .ok 7 ∧ ¬ Taken sample "summary" := by
  refine ⟨?_, rfl, ?_⟩ <;> simp [Taken, sample, classFields, Dict.keys]

end Verif.LndlOutput
