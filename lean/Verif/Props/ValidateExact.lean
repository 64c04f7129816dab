import Verif.Props.Validate

/-!
# Exact outcomes for C141, C144, C146
-/

set_option linter.unusedSectionVars false
set_option linter.unusedSimpArgs false
set_option linter.unusedVariables false

namespace Verif.Validate

open Verif.KeyMatch (Cfg Mode fuzzyMatchKeys Lawful Matching LeftIn LeftExp Output C60_exact demoCfg demoSim)
open Verif.FuzzyJson (Str extractJson Extracted blocks)

variable {κ ν μ : Type} [DecidableEq κ]

/-! ## Specification -/

/-- `r` is what matching the keys of `d` with the field names may come to: `d` itself without field names; otherwise, for a correspondence of similar keys (a
maximal one with fuzzy matching, if no field name is empty; none without), ValueError if keys are left over that must not be, else the output that belongs to it. -/
def KeysMatched (sim : κ → κ → Bool) (falsy : κ → Bool) (fuzzy : Bool) (mode : Mode) (strict : Bool) (fill : κ → ν) (fields : List κ) (d : Dict κ ν)
    (r : Except Exc (Dict κ ν)) : Prop :=
  (fields = [] ∧ r = .ok d) ∨
  (fields ≠ [] ∧ ∃ ps, Matching sim fields d ps ∧ (fuzzy = false → ps = []) ∧
    (fuzzy = true → (∀ k ∈ fields, falsy k = false) → ∀ k m, LeftIn fields d ps k → LeftExp fields d ps m → sim k m = false) ∧
    ((((mode = .raise ∧ ∃ k, LeftIn fields d ps k) ∨ (strict = true ∧ ∃ k, LeftExp fields d ps k)) ∧ r = .error .valueError) ∨
     (¬ ((mode = .raise ∧ ∃ k, LeftIn fields d ps k) ∨ (strict = true ∧ ∃ k, LeftExp fields d ps k)) ∧ ∃ out, r = .ok out ∧ Output mode fill fields d ps out)))

theorem keysMatched (c : Cfg κ ν) (sim : κ → κ → Bool) (hc : Lawful c sim) (fields : List κ) (hf : fields.Nodup) (d : Dict κ ν) (hd : d.WF) :
    KeysMatched sim c.falsy c.fuzzy c.mode c.strict c.fillFor fields d (fuzzyMatchKeys c fields d) := by
  by_cases hne : fields = []
  · subst hne; exact Or.inl ⟨rfl, rfl⟩
  · exact Or.inr ⟨hne, C60_exact c sim hc fields hf hne d hd⟩

/-- `v` is what is validated: the dict given, or the JSON of the text given. -/
inductive DataOf (parse : Str → Option (Val κ ν)) : Input κ ν μ → Val κ ν → Prop where
  | dict (d : Dict κ ν) : DataOf parse (.dict d) (.dict d)
  | text {s : Str} {v : Val κ ν} : JsonOf parse s v → DataOf parse (.text s) v

/-- Validation with its exceptions turned into ValidationError. -/
def Validated (validate : Val κ ν → Except Exc μ) (v : Val κ ν) (r : Except Exc μ) : Prop :=
  (∃ m, validate v = .ok m ∧ r = .ok m) ∨ (∃ e, validate v = .error e ∧ r = .error .validation)

/-- The outcome of matching, passed on to validation. -/
def Then (validate : Val κ ν → Except Exc μ) (m : Except Exc (Dict κ ν)) (r : Except Exc μ) : Prop :=
  (∃ out, m = .ok out ∧ Validated validate (.dict out) r) ∨ (∃ e, m = .error e ∧ r = .error e)

theorem validated (validate : Val κ ν → Except Exc μ) (v : Val κ ν) : Validated validate v (pydanticValidate validate v) := by
  unfold pydanticValidate
  cases h : validate v with
  | ok m => exact Or.inl ⟨m, h, rfl⟩
  | error e => exact Or.inr ⟨e, h, rfl⟩

theorem tail_then (validate : Val κ ν → Except Exc μ) (m : Except Exc (Dict κ ν)) :
    Then validate m (match wrapDict m with | .ok w => pydanticValidate validate w | .error e => .error e) := by
  cases m with
  | ok out => exact Or.inl ⟨out, rfl, validated validate _⟩
  | error e => exact Or.inr ⟨e, rfl, rfl⟩

theorem dataOf_eq {parse : Str → Option (Val κ ν)} {i : Input κ ν μ} {v : Val κ ν} (h : DataOf parse i v) (base : Cfg κ ν)
    (fields : List κ) (validate : Val κ ν → Except Exc μ) (fm : Bool) (p : MatchParams κ ν) :
    fuzzyValidatePydantic parse base fields validate fm p i = pydanticTail base fields validate fm p v := by
  cases h with
  | dict d => rfl
  | text h => simp only [fuzzyValidatePydantic, pydanticData, extract_of h]

/-! ## C141 -/

/-- C141: the outcome of `fuzzy_validate_pydantic` for every input, target class and parameters: an instance is returned; what is no text raises ValidationError;
without key matching the data is validated; with key matching bad parameters and data that is no dict raise TypeError, and otherwise the keys are matched —
fuzzily and with extra keys removed if no parameters are given, as the parameters say otherwise — and the outcome is validated. -/
theorem C141_exact_partial (parse : Str → Option (Val κ ν)) (base : Cfg κ ν) (sim : κ → κ → Bool) (hc : Lawful base sim) (fields : List κ) (hf : fields.Nodup)
    (validate : Val κ ν → Except Exc μ) (i : Input κ ν μ) (fm : Bool) (p : MatchParams κ ν) (r : Except Exc μ)
    (h : fuzzyValidatePydantic parse base fields validate fm p i = r) :
    (∀ m, i = .inst m → r = .ok m) ∧ (i = .bad → r = .error .validation) ∧
    (∀ v, DataOf parse i v →
      (fm = false → Validated validate v r) ∧
      (fm = true → p = .bad ∨ (∀ d, v ≠ .dict d) → r = .error .typeError) ∧
      (∀ d, fm = true → v = .dict d → d.WF →
        (p = .absent → ∃ m, KeysMatched sim base.falsy true .remove false base.fillFor fields d m ∧ Then validate m r) ∧
        (∀ c sim', p = .options c → Lawful c sim' → ∃ m, KeysMatched sim' c.falsy c.fuzzy c.mode c.strict c.fillFor fields d m ∧ Then validate m r))) := by
  subst h
  refine ⟨?_, ?_, ?_⟩
  · rintro m rfl; rfl
  · rintro rfl; rfl
  · intro v hv
    rw [dataOf_eq hv]
    refine ⟨?_, ?_, ?_⟩
    · rintro rfl; exact validated validate v
    · rintro rfl (rfl | hv)
      · rfl
      · cases v with
        | dict d => exact absurd rfl (hv d)
        | list l => cases p <;> rfl
        | other w => cases p <;> rfl
    · rintro d rfl rfl hd
      refine ⟨?_, ?_⟩
      · rintro rfl
        exact ⟨_, keysMatched (removing base) sim (lawful_removing hc) fields hf d hd, tail_then validate _⟩
      · rintro c sim' rfl hc'
        exact ⟨_, keysMatched c sim' hc' fields hf d hd, tail_then validate _⟩

example : fuzzyValidatePydantic (fun _ => (none : Option (Val Nat Nat))) (demoCfg .ignore false) [10, 20]
    (fun v => match v with | .dict [(20, 1), (10, 2)] => Except.ok 7 | _ => .error .valueError) true .absent (.dict [(20, 1), (11, 2), (50, 3)]) = .ok 7 := rfl

/-! ## C144 -/

/-- C144: what `validate_response` does with the JSON object of a text, in full: it matches the keys fuzzily (`raise` for left-over keys if strict, kept
otherwise), leaves out sentinels, validates; failures of a listed kind give None unless strict. -/
theorem C144_object (parse : Str → Option (Val κ ν)) (base : Cfg κ ν) (sim : κ → κ → Bool) (hc : Lawful base sim) (sentinel : ν → Bool)
    (fields : List κ) (hf : fields.Nodup) (validate : Dict κ ν → Except Exc μ) (s : Str) (strict : Bool) (d : Dict κ ν) (hd : d.WF)
    (hj : JsonOf parse s (.dict d) ∨ JsonOf parse s (.list [.dict d])) (r : Except Exc (Option μ))
    (h : validateResponse parse base sentinel fields validate strict s = r) :
    ∃ m, KeysMatched sim base.falsy true (if strict then .raise else .ignore) false base.fillFor fields d m ∧
      ∃ out : Except Exc μ, ((∃ d', m = .ok d' ∧ out = validate (d'.filter (fun kv => !sentinel kv.2))) ∨ (∃ e, m = .error e ∧ out = .error e)) ∧
        ((∃ x, out = .ok x ∧ r = .ok (some x)) ∨
         (∃ e, out = .error e ∧ ((strict = false ∧ Listed e ∧ r = .ok none) ∨ ((strict = true ∨ ¬ Listed e) ∧ r = .error e)))) := by
  have hj' : parseJson parse s = .dict d := by
    unfold parseJson
    rcases hj with hj | hj
    · rw [extract_of hj]; rfl
    · rw [extract_of hj]; rfl
  refine ⟨_, keysMatched (fieldsCfg base strict) sim (lawful_fieldsCfg hc strict) fields hf d hd, ?_⟩
  refine ⟨pipeline parse base sentinel fields validate strict s, ?_, ?_⟩
  · unfold pipeline fuzzyMatchFields
    rw [hj']
    simp only [matchKeys]
    cases fuzzyMatchKeys (fieldsCfg base strict) fields d with
    | ok d' => exact Or.inl ⟨d', rfl, rfl⟩
    | error e => exact Or.inr ⟨e, rfl, rfl⟩
  · subst h
    unfold validateResponse
    cases pipeline parse base sentinel fields validate strict s with
    | ok x => exact Or.inl ⟨x, rfl, rfl⟩
    | error e =>
      refine Or.inr ⟨e, rfl, ?_⟩
      by_cases hl : Listed e
      · cases strict
        · left; refine ⟨rfl, hl, ?_⟩
          simp [handle, (caught_iff e).2 hl]
        · right; refine ⟨Or.inl rfl, ?_⟩
          simp [handle]
      · right; refine ⟨Or.inr hl, ?_⟩
        have : caught e = false := by
          cases hce : caught e
          · rfl
          · exact absurd ((caught_iff e).1 hce) hl
        simp [handle, this]

/-- C144: a text whose JSON is no object (nor a list of one object): None, or TypeError if strict. -/
theorem C144_no_object (parse : Str → Option (Val κ ν)) (base : Cfg κ ν) (sentinel : ν → Bool) (fields : List κ) (validate : Dict κ ν → Except Exc μ) (s : Str)
    (strict : Bool) (v : Val κ ν) (hj : JsonOf parse s v) (hn : ∀ d, v ≠ .dict d ∧ v ≠ .list [.dict d]) :
    validateResponse parse base sentinel fields validate strict s = if strict then .error .typeError else .ok none := by
  have hnd : ∀ d, parseJson parse s ≠ .dict d := by
    intro d hd
    unfold parseJson at hd
    rw [extract_of hj] at hd
    match v, hn with
    | .dict d', hn => exact (hn d').1 rfl
    | .other w, hn => cases hd
    | .list [], hn => cases hd
    | .list [x], hn =>
      have : x = .dict d := hd
      subst this; exact (hn d).2 rfl
    | .list (x :: y :: l), hn => cases hd
  have hm : matchKeys (fieldsCfg base strict) fields (parseJson parse s) = .error .typeError := by
    cases hv : parseJson parse s with
    | dict d => exact absurd hv (hnd d)
    | list l => rfl
    | other w => rfl
  unfold validateResponse pipeline fuzzyMatchFields
  rw [hm]
  cases strict <;> rfl

/-! ## C146 -/

/-- C146: the exact outcome for a text: its JSON object, or the first item of its JSON array if that is one, is matched; an empty array — unless it is only
that nothing could be parsed, which counts as the empty dict — and every other value fail with ValueError, or count as the empty dict if errors are suppressed. -/
theorem C146_text_partial (parse : Str → Option (Val κ ν)) (c : Cfg κ ν) (keys : List κ) (suppress : Bool) (s : Str) (v : Val κ ν) (hj : JsonOf parse s v) :
    (∀ d, (v = .dict d ∨ (∃ l, v = .list (.dict d :: l)) ∨ (v = .list [] ∧ parse s = none ∧ d = [])) →
      fuzzyValidateMapping parse c keys suppress (.text s) = fuzzyMatchKeys c keys d) ∧
    ((∀ d, v ≠ .dict d ∧ (∀ l, v ≠ .list (.dict d :: l)) ∧ ¬ (v = .list [] ∧ parse s = none)) →
      fuzzyValidateMapping parse c keys suppress (.text s) = if suppress then fuzzyMatchKeys c keys [] else .error .valueError) := by
  have he := extract_of hj
  refine ⟨?_, ?_⟩
  · rintro d (rfl | ⟨l, rfl⟩ | ⟨rfl, hp, rfl⟩)
    · simp only [fuzzyValidateMapping, mapValue, he, firstOr, mapDict]
    · simp only [fuzzyValidateMapping, mapValue, he, firstOr, mapDict]
    · simp only [fuzzyValidateMapping, mapValue, he, firstOr, toDictText, hp, mapDict]
  · intro hn
    have hm : mapDict suppress (mapValue parse (.text s)) = if suppress then .ok [] else .error .valueError := by
      simp only [mapValue, he]
      match v, hn, hj with
      | .dict d, hn, _ => exact absurd rfl (hn d).1
      | .other w, hn, _ => rfl
      | .list [], hn, hj =>
        have hs : parse s = some (.list []) := by
          generalize hv : (Val.list [] : Val κ ν) = v at hj
          cases hj with
          | whole h => exact h
          | block b h1 _ _ => exact absurd ⟨rfl, h1⟩ (hn []).2.2
          | blocks bs h1 _ _ => exact absurd ⟨rfl, h1⟩ (hn []).2.2
          | nothing h1 _ => exact absurd ⟨rfl, h1⟩ (hn []).2.2
        simp only [firstOr, toDictText, hs, mapDict]
      | .list (.dict d :: l), hn, _ => exact absurd rfl ((hn d).2.1 l)
      | .list (.other w :: l), hn, _ => rfl
      | .list (.list l' :: l), hn, _ => rfl
    simp only [fuzzyValidateMapping]
    rw [hm]
    cases suppress <;> rfl

example : fuzzyValidateMapping (fun _ => some (.list [])) (demoCfg .ignore false) [10] false (.text "[]".toList) = .error .valueError := rfl

end Verif.Validate
