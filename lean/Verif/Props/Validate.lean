import Verif.Model.Validate
import Verif.Props.KeyMatch

set_option linter.unusedSectionVars false
set_option linter.unusedSimpArgs false
set_option linter.unusedVariables false

/-!
# C141 – C146: validation of loosely structured input
-/

namespace Verif.Validate

open Verif.KeyMatch (Cfg Mode fuzzyMatchKeys Lawful Matching LeftIn LeftExp Output C60_spec demoCfg demoSim)
open Verif.FuzzyJson (Str extractJson Extracted blocks)

variable {κ ν μ : Type} [DecidableEq κ]

/-! ## C141: how failures of `fuzzy_validate_pydantic` are reported -/

/-- A result or ValidationError. -/
def Reported (r : Except Exc μ) : Prop := (∃ m, r = .ok m) ∨ r = .error .validation

theorem pydanticValidate_reported (validate : Val κ ν → Except Exc μ) (v : Val κ ν) : Reported (pydanticValidate validate v) := by
  unfold pydanticValidate
  cases validate v with
  | ok m => exact Or.inl ⟨m, rfl⟩
  | error e => exact Or.inr rfl

/-- `v` is the JSON of a text: the text itself parsed; if it cannot be parsed, its only JSON block parsed; if there are several blocks, the list of those
that can be parsed; an empty list if there is nothing. -/
inductive JsonOf (parse : Str → Option (Val κ ν)) (s : Str) : Val κ ν → Prop where
  | whole {v : Val κ ν} : parse s = some v → JsonOf parse s v
  | block {v : Val κ ν} (b : Str) : parse s = none → blocks s.length s = [b] → parse b = some v → JsonOf parse s v
  | blocks (bs : List Str) : parse s = none → FuzzyJson.blocks s.length s = bs → bs.length ≥ 2 → JsonOf parse s (.list (bs.filterMap parse))
  | nothing : parse s = none → (∀ b ∈ FuzzyJson.blocks s.length s, parse b = none) → JsonOf parse s (.list [])

theorem extract_of {parse : Str → Option (Val κ ν)} {s : Str} {v : Val κ ν} (h : JsonOf parse s v) : extract parse s = v := by
  unfold extract extractJson
  cases h with
  | whole h => rw [h]; rfl
  | block b h1 h2 h3 => rw [h1, h2]; simp [FuzzyJson.extractOne, h3, asValue]
  | blocks bs h1 h2 h3 =>
    rw [h1, h2]
    match bs, h3 with
    | [], h3 => exact absurd h3 (by simp)
    | [b], h3 => exact absurd h3 (by simp)
    | a :: b :: l, h3 => rfl
  | nothing h1 h2 =>
    rw [h1]
    match hb : FuzzyJson.blocks s.length s with
    | [] => rfl
    | [b] => simp [FuzzyJson.extractOne, h2 b (by rw [hb]; simp), asValue]
    | a :: b :: l =>
      rw [hb] at h2
      have : (a :: b :: l).filterMap parse = [] := by
        rw [List.filterMap_eq_nil_iff]
        exact h2
      simp only [asValue, this]

theorem json_extract (parse : Str → Option (Val κ ν)) (s : Str) : JsonOf parse s (extract parse s) := by
  cases h1 : parse s with
  | some v =>
    have h := JsonOf.whole h1
    rw [extract_of h]; exact h
  | none =>
    match hb : FuzzyJson.blocks s.length s with
    | [] =>
      have h : JsonOf parse s (.list []) := .nothing h1 (by rw [hb]; simp)
      rw [extract_of h]; exact h
    | [b] =>
      cases h2 : parse b with
      | some v =>
        have h := JsonOf.block b h1 hb h2
        rw [extract_of h]; exact h
      | none =>
        have h : JsonOf parse s (.list []) := .nothing h1 (by rw [hb]; simpa using h2)
        rw [extract_of h]; exact h
    | a :: b :: l =>
      have h := JsonOf.blocks (a :: b :: l) h1 hb (by simp)
      rw [extract_of h]; exact h

/-- The input is a dict, or a text whose JSON is one. -/
def HoldsDict (parse : Str → Option (Val κ ν)) (i : Input κ ν μ) (d : Dict κ ν) : Prop :=
  i = .dict d ∨ ∃ s, i = .text s ∧ JsonOf parse s (.dict d)

theorem holds_eq {parse : Str → Option (Val κ ν)} {i : Input κ ν μ} {d : Dict κ ν} (h : HoldsDict parse i d) (base : Cfg κ ν)
    (fields : List κ) (validate : Val κ ν → Except Exc μ) (fm : Bool) (p : MatchParams κ ν) :
    fuzzyValidatePydantic parse base fields validate fm p i = pydanticTail base fields validate fm p (.dict d) := by
  rcases h with rfl | ⟨s, rfl, h⟩
  · rfl
  · simp only [fuzzyValidatePydantic, pydanticData, extract_of h]

theorem removing_ok (base : Cfg κ ν) (fields : List κ) (d : Dict κ ν) : ∃ out, fuzzyMatchKeys (removing base) fields d = .ok out := by
  unfold fuzzyMatchKeys
  split
  · exact ⟨_, rfl⟩
  · rw [if_neg (by simp [removing]), if_neg (by simp [removing])]
    exact ⟨_, rfl⟩

/-- **C141** (partial).  Without key matching, and with the default key matching of a dict, `fuzzy_validate_pydantic` returns an
instance or raises ValidationError; parameters of a wrong type raise TypeError.
Missing: key matching of a text without exactly one JSON object, and with explicit parameters; see the violations. -/
theorem C141_reported_partial (parse : Str → Option (Val κ ν)) (base : Cfg κ ν) (fields : List κ) (validate : Val κ ν → Except Exc μ)
    (p : MatchParams κ ν) (i : Input κ ν μ) :
    Reported (fuzzyValidatePydantic parse base fields validate false p i) ∧
    (∀ d, HoldsDict parse i d → Reported (fuzzyValidatePydantic parse base fields validate true .absent i) ∧
      fuzzyValidatePydantic parse base fields validate true .bad i = .error .typeError) ∧
    (∀ m fm, i = .inst m → fuzzyValidatePydantic parse base fields validate fm p i = .ok m) := by
  refine ⟨?_, ?_, ?_⟩
  · cases i with
    | inst m => exact Or.inl ⟨m, rfl⟩
    | dict d => exact pydanticValidate_reported _ _
    | text s => exact pydanticValidate_reported _ _
    | bad => exact Or.inr rfl
  · intro d hd
    rw [holds_eq hd, holds_eq hd]
    obtain ⟨out, ho⟩ := removing_ok base fields d
    refine ⟨?_, rfl⟩
    simp only [pydanticTail, if_true, pydanticMatch, matchKeys, ho, wrapDict]
    exact pydanticValidate_reported _ _
  · rintro m fm rfl
    rfl

/-- **C141 is false**: with key matching, a text without any JSON raises TypeError, whatever the target class. -/
theorem C141_no_json_violation (parse : Str → Option (Val κ ν)) (base : Cfg κ ν) (fields : List κ) (validate : Val κ ν → Except Exc μ) (s : Str)
    (h1 : parse s = none) (h2 : blocks s.length s = []) :
    fuzzyValidatePydantic parse base fields validate true .absent (.text s) = .error .typeError := by
  have h : extract parse s = .list [] := by
    unfold extract extractJson
    rw [h1, h2]
    rfl
  simp only [fuzzyValidatePydantic, pydanticData, h, pydanticTail, if_true, pydanticMatch, matchKeys, wrapDict]

/-- **C141 is false**: with key matching that raises on unknown keys, ValueError escapes. -/
theorem C141_options_violation (parse : Str → Option (Val Nat Nat)) (base : Cfg Nat Nat) (validate : Val Nat Nat → Except Exc μ) :
    fuzzyValidatePydantic parse base [10, 20] validate true (.options (demoCfg .raise false)) (.dict [(50, 3)]) = .error .valueError := by
  have h : fuzzyMatchKeys (demoCfg .raise false) [10, 20] [(50, 3)] = .error .valueError := by decide
  simp only [fuzzyValidatePydantic, pydanticData, pydanticTail, if_true, pydanticMatch, matchKeys, h, wrapDict]

example : fuzzyValidatePydantic (μ := Nat) (fun _ => (none : Option (Val Nat Nat))) (demoCfg .ignore false) [10] (fun _ => .ok 1) true .absent (.text "no json".toList) =
    .error .typeError := C141_no_json_violation _ _ _ _ _ rfl (by decide)

/-! ## C142, C143: key matching and exact field names -/

/-- The same entries. -/
def SameEntries (d e : Dict κ ν) : Prop := ∀ k, d.get? k = e.get? k

/-- All keys are field names. -/
def OnlyFields (fields : List κ) (d : Dict κ ν) : Prop := ∀ k, k ∈ d.keys → k ∈ fields

/-- Validation looks at the entries, not at their order. -/
def OrderFree (validate : Dict κ ν → Except Exc μ) : Prop := ∀ d e, SameEntries d e → validate d = validate e

theorem match_exact (c : Cfg κ ν) (sim : κ → κ → Bool) (hc : Lawful c sim) (fields : List κ) (hf : fields.Nodup) (d : Dict κ ν) (hd : d.WF)
    (ho : OnlyFields fields d) (hm : c.mode = .remove ∨ c.mode = .ignore ∨ c.mode = .raise) (hs : c.strict = false) :
    ∃ out, fuzzyMatchKeys c fields d = .ok out ∧ SameEntries out d := by
  by_cases hne : fields = []
  · subst hne
    exact ⟨d, rfl, fun k => rfl⟩
  obtain ⟨ps, hM, hE, hO⟩ := C60_spec c sim hc fields hf hne d hd
  have hps : ps = [] := by
    cases ps with
    | nil => rfl
    | cons p ps => exact absurd (ho _ (hM.src p List.mem_cons_self).1) (hM.src p List.mem_cons_self).2
  subst hps
  cases hr : fuzzyMatchKeys c fields d with
  | error e =>
    rcases hE.1 ⟨e, hr⟩ with ⟨_, k, h1, h2, _⟩ | ⟨h, _⟩
    · exact absurd (ho k h1) h2
    · rw [hs] at h; cases h
  | ok out =>
    refine ⟨out, rfl, fun k => ?_⟩
    have H := hO out hr
    by_cases h1 : k ∈ d.keys
    · exact H.exact k (ho k h1) h1
    · rw [(Dict.get?_eq_none_iff d k).2 h1]
      by_cases h2 : k ∈ fields
      · rw [H.missing k ⟨h2, h1, by simp⟩]
        rcases hm with h | h | h <;> simp [h]
      · exact H.nothing_else k h2 h1

theorem lawful_removing {c : Cfg κ ν} {sim : κ → κ → Bool} (hc : Lawful c sim) : Lawful (removing c) sim := ⟨hc.some, hc.none, hc.perm⟩

theorem lawful_fieldsCfg {c : Cfg κ ν} {sim : κ → κ → Bool} (hc : Lawful c sim) (strict : Bool) : Lawful (fieldsCfg c strict) sim :=
  ⟨hc.some, hc.none, hc.perm⟩

theorem dropSentinels_none {sentinel : ν → Bool} (hs : ∀ v, sentinel v = false) (d : Dict κ ν) : dropSentinels sentinel d = d := by
  unfold dropSentinels
  apply List.filter_eq_self.2
  intro kv _
  simp [hs]

/-- **C142**.  A dict whose keys are all field names is validated as it is: `fuzzy_validate_pydantic` gives the same outcome with and
without key matching. -/
theorem C142_pydantic (parse : Str → Option (Val κ ν)) (base : Cfg κ ν) (sim : κ → κ → Bool) (hc : Lawful base sim) (fields : List κ)
    (hf : fields.Nodup) (validate : Val κ ν → Except Exc μ) (hv : OrderFree (fun d => validate (.dict d))) (i : Input κ ν μ) (d : Dict κ ν)
    (hi : HoldsDict parse i d) (hd : d.WF) (ho : OnlyFields fields d) (p : MatchParams κ ν) :
    fuzzyValidatePydantic parse base fields validate true .absent i = fuzzyValidatePydantic parse base fields validate false p i := by
  obtain ⟨out, h1, h2⟩ := match_exact (removing base) sim (lawful_removing hc) fields hf d hd ho (Or.inl rfl) rfl
  rw [holds_eq hi, holds_eq hi]
  have h3 : validate (.dict out) = validate (.dict d) := hv _ _ h2
  simp [pydanticTail, pydanticMatch, matchKeys, h1, wrapDict, pydanticValidate, h3]

/-- **C142**.  `validate_response` on a text whose JSON is an object with field names as keys validates that object, strict or not. -/
theorem C142_response (parse : Str → Option (Val κ ν)) (base : Cfg κ ν) (sim : κ → κ → Bool) (hc : Lawful base sim) (sentinel : ν → Bool)
    (hs : ∀ v, sentinel v = false) (fields : List κ) (hf : fields.Nodup) (validate : Dict κ ν → Except Exc μ) (hv : OrderFree validate)
    (s : Str) (d : Dict κ ν) (hp : parse s = some (.dict d)) (hd : d.WF) (ho : OnlyFields fields d) (m : μ) (hm : validate d = .ok m)
    (strict : Bool) : validateResponse parse base sentinel fields validate strict s = .ok (some m) := by
  have hmode : (fieldsCfg base strict).mode = .remove ∨ (fieldsCfg base strict).mode = .ignore ∨ (fieldsCfg base strict).mode = .raise := by
    cases strict
    · exact Or.inr (Or.inl rfl)
    · exact Or.inr (Or.inr rfl)
  obtain ⟨out, h1, h2⟩ := match_exact (fieldsCfg base strict) sim (lawful_fieldsCfg hc strict) fields hf d hd ho hmode rfl
  have hj : parseJson parse s = .dict d := by
    unfold parseJson extract extractJson
    rw [hp]
    rfl
  have h3 : validate out = .ok m := by rw [hv _ _ h2, hm]
  simp only [validateResponse, pipeline, fuzzyMatchFields, hj, matchKeys, h1, dropIn, dropSentinels_none hs, h3, handle]

/-- The same when the object is in the only JSON block of a text that is not JSON itself. -/
theorem C142_block (parse : Str → Option (Val κ ν)) (base : Cfg κ ν) (sim : κ → κ → Bool) (hc : Lawful base sim) (sentinel : ν → Bool)
    (hs : ∀ v, sentinel v = false) (fields : List κ) (hf : fields.Nodup) (validate : Dict κ ν → Except Exc μ) (hv : OrderFree validate)
    (s b : Str) (d : Dict κ ν) (hn : parse s = none) (hb : blocks s.length s = [b]) (hp : parse b = some (.dict d)) (hd : d.WF)
    (ho : OnlyFields fields d) (m : μ) (hm : validate d = .ok m)
    (strict : Bool) : validateResponse parse base sentinel fields validate strict s = .ok (some m) := by
  have hmode : (fieldsCfg base strict).mode = .remove ∨ (fieldsCfg base strict).mode = .ignore ∨ (fieldsCfg base strict).mode = .raise := by
    cases strict
    · exact Or.inr (Or.inl rfl)
    · exact Or.inr (Or.inr rfl)
  obtain ⟨out, h1, h2⟩ := match_exact (fieldsCfg base strict) sim (lawful_fieldsCfg hc strict) fields hf d hd ho hmode rfl
  have hj : parseJson parse s = .dict d := by
    unfold parseJson extract extractJson
    rw [hn, hb]
    simp [FuzzyJson.extractOne, hp, asValue, unwrap]
  have h3 : validate out = .ok m := by rw [hv _ _ h2, hm]
  simp only [validateResponse, pipeline, fuzzyMatchFields, hj, matchKeys, h1, dropIn, dropSentinels_none hs, h3, handle]

/-- A class with the fields 10 and 20; 10 is required. -/
def demoValidate (d : Dict Nat Nat) : Except Exc Nat :=
  match d.get? 10 with
  | some v => .ok v
  | none => .error .valueError

example : OrderFree demoValidate := by
  intro d e h
  simp only [demoValidate, h 10]

example : OnlyFields [10, 20] ([(20, 1), (10, 2)] : Dict Nat Nat) ∧ demoValidate [(20, 1), (10, 2)] = .ok 2 := by
  refine ⟨?_, by decide⟩
  intro k hk
  simp [Dict.keys] at hk
  rcases hk with rfl | rfl <;> simp

/-- **C143** (partial).  Key matching rejects nothing that is accepted without it, for dicts with only field names.
Missing: dicts with other keys, where it is false, see `C143_alias_violation`. -/
theorem C143_accepts_partial (parse : Str → Option (Val κ ν)) (base : Cfg κ ν) (sim : κ → κ → Bool) (hc : Lawful base sim) (fields : List κ)
    (hf : fields.Nodup) (validate : Val κ ν → Except Exc μ) (hv : OrderFree (fun d => validate (.dict d))) (i : Input κ ν μ) (d : Dict κ ν)
    (hi : HoldsDict parse i d) (hd : d.WF) (ho : OnlyFields fields d) (m : μ)
    (h : fuzzyValidatePydantic parse base fields validate false .absent i = .ok m) :
    fuzzyValidatePydantic parse base fields validate true .absent i = .ok m := by
  rw [C142_pydantic parse base sim hc fields hf validate hv i d hi hd ho .absent, h]

/-- Validation of a class whose field 10 has the alias 30: the value is looked up under the alias. -/
def aliasValidate : Val Nat Nat → Except Exc Nat
  | .dict d =>
    match d.get? 30 with
    | some v => .ok v
    | none => .error .valueError
  | _ => .error .valueError

/-- **C143 is false**: the alias of a field is not a field name, so key matching removes the entry. -/
theorem C143_alias_violation :
    fuzzyValidatePydantic (fun _ => none) (demoCfg .ignore false) [10] aliasValidate false .absent (.dict [(30, 5)]) = .ok 5 ∧
    fuzzyValidatePydantic (fun _ => none) (demoCfg .ignore false) [10] aliasValidate true .absent (.dict [(30, 5)]) = .error .validation := by
  have h : fuzzyMatchKeys (removing (demoCfg .ignore false)) [10] [(30, 5)] = .ok [] := by decide
  refine ⟨rfl, ?_⟩
  simp only [fuzzyValidatePydantic, pydanticData, pydanticTail, if_true, pydanticMatch, matchKeys, h, wrapDict, pydanticValidate, aliasValidate]
  rfl

/-! ## C144: `validate_response` -/

/-- The failures listed in the handler. -/
def Listed (e : Exc) : Prop := e = .valueError ∨ e = .typeError ∨ e = .keyError ∨ e = .attributeError

theorem caught_iff (e : Exc) : caught e = true ↔ Listed e := by
  cases e <;> simp [caught, Listed]

theorem fmk_error {c : Cfg κ ν} {fields : List κ} {d : Dict κ ν} {e : Exc} (h : fuzzyMatchKeys c fields d = .error e) : e = .valueError := by
  unfold fuzzyMatchKeys at h
  split at h
  · cases h
  · split at h
    · injection h with h; exact h.symm
    · split at h
      · injection h with h; exact h.symm
      · cases h

theorem fuzzyMatchFields_error {base : Cfg κ ν} {sentinel : ν → Bool} {fields : List κ} {strict : Bool} {v : Val κ ν} {e : Exc}
    (h : fuzzyMatchFields base sentinel fields strict v = .error e) : Listed e := by
  unfold fuzzyMatchFields at h
  cases v with
  | dict d =>
    simp only [matchKeys] at h
    cases hm : fuzzyMatchKeys (fieldsCfg base strict) fields d with
    | ok o => rw [hm] at h; cases h
    | error e' =>
      rw [hm] at h
      simp only [dropIn] at h
      injection h with h
      subst h
      exact Or.inl (fmk_error hm)
  | list l => simp only [matchKeys, dropIn] at h; injection h with h; exact Or.inr (Or.inl h.symm)
  | other v => simp only [matchKeys, dropIn] at h; injection h with h; exact Or.inr (Or.inl h.symm)

/-- **C144**.  If `model_validate` raises only ValueError, TypeError, KeyError or AttributeError, the lenient
`validate_response` never raises: it returns an instance, or None.
Not covered: target classes whose validation raises something else, see `C144_escape_limit`. -/
theorem C144_lenient (parse : Str → Option (Val κ ν)) (base : Cfg κ ν) (sentinel : ν → Bool) (fields : List κ)
    (validate : Dict κ ν → Except Exc μ) (hv : ∀ d e, validate d = .error e → Listed e) (s : Str) :
    ∃ r, validateResponse parse base sentinel fields validate false s = .ok r := by
  unfold validateResponse
  cases hp : pipeline parse base sentinel fields validate false s with
  | ok m => exact ⟨_, rfl⟩
  | error e =>
    have hl : Listed e := by
      unfold pipeline at hp
      cases hm : fuzzyMatchFields base sentinel fields false (parseJson parse s) with
      | error e' =>
        rw [hm] at hp
        simp only [] at hp
        injection hp with hp
        subst hp
        exact fuzzyMatchFields_error hm
      | ok d =>
        rw [hm] at hp
        exact hv d e hp
    refine ⟨none, ?_⟩
    simp [handle, (caught_iff e).2 hl]

/-- **C144**.  The strict `validate_response` never returns None. -/
theorem C144_strict (parse : Str → Option (Val κ ν)) (base : Cfg κ ν) (sentinel : ν → Bool) (fields : List κ)
    (validate : Dict κ ν → Except Exc μ) (s : Str) :
    validateResponse parse base sentinel fields validate true s ≠ .ok none := by
  unfold validateResponse
  cases pipeline parse base sentinel fields validate true s with
  | ok m => simp [handle]
  | error e => simp [handle]

/-- **C144**.  An instance returned by `validate_response` was validated from the JSON object in the text (alone, or the only item of a
list): the data is that object with some keys renamed to similar missing field names; the strict variant accepts no other keys. -/
theorem C144_data (parse : Str → Option (Val κ ν)) (base : Cfg κ ν) (sim : κ → κ → Bool) (hc : Lawful base sim) (sentinel : ν → Bool)
    (hs : ∀ v, sentinel v = false) (fields : List κ) (hf : fields.Nodup) (hne : fields ≠ []) (validate : Dict κ ν → Except Exc μ) (s : Str)
    (hwf : ∀ d, (JsonOf parse s (.dict d) ∨ JsonOf parse s (.list [.dict d])) → d.WF) (strict : Bool) (m : μ)
    (h : validateResponse parse base sentinel fields validate strict s = .ok (some m)) :
    ∃ d out ps, (JsonOf parse s (.dict d) ∨ JsonOf parse s (.list [.dict d])) ∧ validate out = .ok m ∧
      Matching sim fields d ps ∧ Output .ignore base.fillFor fields d ps out ∧
      (strict = true → ∀ k, ¬ LeftIn fields d ps k) := by
  unfold validateResponse at h
  cases hp : pipeline parse base sentinel fields validate strict s with
  | error e =>
    rw [hp] at h
    simp only [handle] at h
    split at h <;> cases h
  | ok m' =>
    rw [hp] at h
    simp only [handle] at h
    injection h with h
    injection h with h
    subst h
    unfold pipeline at hp
    cases hm : fuzzyMatchFields base sentinel fields strict (parseJson parse s) with
    | error e => rw [hm] at hp; cases hp
    | ok out =>
      rw [hm] at hp
      simp only [] at hp
      unfold fuzzyMatchFields at hm
      cases hj : parseJson parse s with
      | list l => rw [hj] at hm; cases hm
      | other v => rw [hj] at hm; cases hm
      | dict d =>
        rw [hj] at hm
        simp only [matchKeys] at hm
        cases hk : fuzzyMatchKeys (fieldsCfg base strict) fields d with
        | error e => rw [hk] at hm; cases hm
        | ok out' =>
          rw [hk] at hm
          simp only [dropIn, dropSentinels_none hs] at hm
          injection hm with hm
          subst hm
          have hx : JsonOf parse s (.dict d) ∨ JsonOf parse s (.list [.dict d]) := by
            have hJ := json_extract parse s
            unfold parseJson at hj
            cases he : extract parse s with
            | dict d' => rw [he] at hj hJ; simp only [unwrap] at hj; injection hj with hj; subst hj; exact Or.inl hJ
            | other v => rw [he] at hj; simp only [unwrap] at hj; cases hj
            | list l =>
              rw [he] at hj hJ
              match l, hj, hJ with
              | [], hj, _ => simp only [unwrap] at hj; cases hj
              | [v], hj, hJ => simp only [unwrap] at hj; subst hj; exact Or.inr hJ
              | _ :: _ :: _, hj, _ => simp only [unwrap] at hj; cases hj
          have hd : d.WF := hwf d hx
          · obtain ⟨ps, hM, hE, hO⟩ := C60_spec (fieldsCfg base strict) sim (lawful_fieldsCfg hc strict) fields hf hne d hd
            refine ⟨d, out', ps, hx, hp, hM, ?_, ?_⟩
            · have H := hO out' hk
              cases strict with
              | false => exact H
              | true =>
                have hnl : ∀ k, ¬ LeftIn fields d ps k := by
                  intro k hl
                  obtain ⟨e, he⟩ := hE.2 (Or.inl ⟨rfl, k, hl⟩)
                  rw [hk] at he
                  cases he
                exact ⟨H.exact, H.matched, H.missing, fun k hl => absurd hl (hnl k), H.sources, H.nothing_else⟩
            · rintro rfl k hl
              obtain ⟨e, he⟩ := hE.2 (Or.inl ⟨rfl, k, hl⟩)
              rw [hk] at he
              cases he

/-- No sentinel reaches validation. -/
theorem C144_no_sentinel (base : Cfg κ ν) (sentinel : ν → Bool) (fields : List κ) (strict : Bool) (v : Val κ ν) (out : Dict κ ν)
    (h : fuzzyMatchFields base sentinel fields strict v = .ok out) : ∀ kv ∈ out, sentinel kv.2 = false := by
  unfold fuzzyMatchFields at h
  cases hm : matchKeys (fieldsCfg base strict) fields v with
  | error e => rw [hm] at h; cases h
  | ok d =>
    rw [hm] at h
    simp only [dropIn] at h
    injection h with h
    subst h
    intro kv hkv
    have := (List.mem_filter.1 hkv).2
    simpa using this

/-- A validator that raises RuntimeError. -/
def raising (_ : Dict Nat Nat) : Except Exc Nat := .error .runtimeError

/-- Outside the domain of C144: an exception of another kind in a validator escapes from the lenient `validate_response`. -/
theorem C144_escape_limit : ∃ s,
    validateResponse (fun _ => some (.dict [(10, 1)])) (demoCfg .ignore false) (fun _ => false) [10] raising false s = .error .runtimeError := by
  refine ⟨[], ?_⟩
  have h : fuzzyMatchKeys (fieldsCfg (demoCfg .ignore false) false) [10] [(10, 1)] = .ok [(10, 1)] := by decide
  simp only [validateResponse, pipeline, parseJson, extract, extractJson, asValue, unwrap, fuzzyMatchFields, matchKeys, h, dropIn, raising, handle]
  rfl

/-- A similar key is renamed, an unrelated one kept. -/
example : validateResponse (fun _ => some (.dict [(11, 4), (50, 3)])) (demoCfg .ignore false) (fun _ => false) [10, 20] demoValidate false [] = .ok (some 4) ∧
    validateResponse (fun _ => some (.dict [(11, 4), (50, 3)])) (demoCfg .ignore false) (fun _ => false) [10, 20] demoValidate true [] = .error .valueError ∧
    validateResponse (fun _ => some (.list [.dict [(11, 4)], .dict []])) (demoCfg .ignore false) (fun _ => false) [10, 20] demoValidate false [] = .ok none := by
  refine ⟨?_, ?_, ?_⟩ <;> rfl

/-! ## C145: `update_model` -/

/-- The value of a field after an update. -/
def Updated (get : μ → κ → Option ν) (m m' : μ) (updates : Dict κ ν) (k : κ) : Prop :=
  get m' k = match updates.get? k with
    | some v => some v
    | none => get m k

/-- **C145**.  If validation stores what it is given and `model_dump` writes the field, the new instance has the updated value
for an updated field and the old value otherwise.
Not covered: fields that `model_dump` does not write, see `C145_excluded_limit`. -/
theorem C145_update (get : μ → κ → Option ν) (dump : μ → Dict κ ν) (validate : Dict κ ν → Except Exc μ)
    (hstore : ∀ d m k v, validate d = .ok m → d.get? k = some v → get m k = some v)
    (m m' : μ) (updates : Dict κ ν) (wu : updates.WF) (h : updateModel dump validate m updates = .ok m') (k : κ) (v : ν)
    (hk : get m k = some v) (hdump : (dump m).get? k = some v) : Updated get m m' updates k := by
  unfold updateModel at h
  unfold Updated
  have hg := Dict.get?_update wu (dump m) k
  cases hu : updates.get? k with
  | some w =>
    rw [hu] at hg
    exact hstore _ _ k w h (by rw [hg]; rfl)
  | none =>
    rw [hu, hdump] at hg
    simp only [hk]
    exact hstore _ _ k v h (by rw [hg]; rfl)

/-- Instances with two fields, both optional with default 0; the second is declared with `exclude=True`. -/
def pairValidate (d : Dict Nat Nat) : Except Exc (Nat × Nat) := .ok ((d.get? 1).getD 0, (d.get? 2).getD 0)

def pairDump (m : Nat × Nat) : Dict Nat Nat := [(1, m.1)]

def pairGet (m : Nat × Nat) (k : Nat) : Option Nat := if k = 1 then some m.1 else if k = 2 then some m.2 else none

/-- Outside the domain of C145: a field that `model_dump` leaves out (`exclude=True`) falls back to its default although it is not updated. -/
theorem C145_excluded_limit :
    updateModel pairDump pairValidate (3, 7) [(1, 4)] = .ok (4, 0) ∧ ¬ Updated pairGet (3, 7) (4, 0) [(1, 4)] 2 := by
  refine ⟨by decide, ?_⟩
  unfold Updated
  decide

example : updateModel pairDump pairValidate (3, 0) [(1, 4)] = .ok (4, 0) ∧ Updated pairGet (3, 0) (4, 0) [(1, 4)] 1 := by
  refine ⟨by decide, ?_⟩
  unfold Updated
  decide

/-! ## C146: `fuzzy_validate_mapping` -/

/-- **C146** (partial).  None raises TypeError; an object that converts to a dict, and a text whose JSON is an object or a list starting with one,
are matched as that dict; with `suppress_conversion_errors` everything else counts as the empty dict; an object that converts to
something else raises ValueError without it.
Missing: texts that contain no JSON do not raise ValueError, see `C146_no_json_violation`. -/
theorem C146_mapping_partial (parse : Str → Option (Val κ ν)) (c : Cfg κ ν) (keys : List κ) (suppress : Bool) :
    fuzzyValidateMapping parse c keys suppress .none = .error .typeError ∧
    (∀ d, fuzzyValidateMapping parse c keys suppress (.obj (.dict d)) = fuzzyMatchKeys c keys d) ∧
    (∀ s d, JsonOf parse s (.dict d) ∨ (∃ l, JsonOf parse s (.list (.dict d :: l))) → fuzzyValidateMapping parse c keys suppress (.text s) = fuzzyMatchKeys c keys d) ∧
    (∀ v, (∀ d, v ≠ .dict d) →
      fuzzyValidateMapping parse c keys true (.obj v) = fuzzyMatchKeys c keys [] ∧
      fuzzyValidateMapping parse c keys false (.obj v) = .error .valueError) := by
  refine ⟨rfl, fun d => rfl, ?_, ?_⟩
  · rintro s d (h | ⟨l, h⟩)
    · simp only [fuzzyValidateMapping, mapValue, extract_of h, firstOr, mapDict]
    · simp only [fuzzyValidateMapping, mapValue, extract_of h, firstOr, mapDict]
  · intro v hv
    cases v with
    | dict d => exact absurd rfl (hv d)
    | list l => exact ⟨rfl, rfl⟩
    | other w => exact ⟨rfl, rfl⟩

/-- **C146 is false**: a text without any JSON counts as the empty dict even without `suppress_conversion_errors`. -/
theorem C146_no_json_violation (parse : Str → Option (Val κ ν)) (c : Cfg κ ν) (keys : List κ) (s : Str)
    (h1 : parse s = none) (h2 : blocks s.length s = []) :
    fuzzyValidateMapping parse c keys false (.text s) = fuzzyMatchKeys c keys [] := by
  have h : extract parse s = .list [] := by
    unfold extract extractJson
    rw [h1, h2]
    rfl
  simp only [fuzzyValidateMapping, mapValue, h, firstOr, toDictText, h1, mapDict]

example : fuzzyValidateMapping (fun _ => none) (demoCfg .ignore false) [10] false (.text "no json".toList) = .ok [] := by
  rw [C146_no_json_violation _ _ _ _ rfl (by decide)]
  decide

end Verif.Validate
