import Verif.Model.SchemaModel
import Verif.Props.CreatePath

set_option linter.unusedSectionVars false
set_option linter.unusedSimpArgs false
set_option linter.unusedVariables false

/-!
# C205 to C208: models generated from schemas
-/

namespace Verif.SchemaModel

open Verif.CreatePath (Text Path Inside Plain)

/-! ### Specification -/

/-- An ASCII identifier that starts with a letter. -/
def IsIdentifier (n : Text) : Prop :=
  ∃ c cs, n = c :: cs ∧ (('a' ≤ c ∧ c ≤ 'z') ∨ ('A' ≤ c ∧ c ≤ 'Z')) ∧
    ∀ d ∈ cs, ('a' ≤ d ∧ d ≤ 'z') ∨ ('A' ≤ d ∧ d ≤ 'Z') ∨ ('0' ≤ d ∧ d ≤ '9') ∨ d = '_'

/-- The characters an identifier may have. -/
def IdChar (d : Char) : Prop := ('a' ≤ d ∧ d ≤ 'z') ∨ ('A' ≤ d ∧ d ≤ 'Z') ∨ ('0' ≤ d ∧ d ≤ '9') ∨ d = '_'

/-- `n` is `t` with the characters removed that no identifier may have. -/
inductive Cleaned : Text → Text → Prop where
  | nil : Cleaned [] []
  | keep (c : Char) (t n : Text) : IdChar c → Cleaned t n → Cleaned (c :: t) (c :: n)
  | drop (c : Char) (t n : Text) : ¬ IdChar c → Cleaned t n → Cleaned (c :: t) n

/-! ### C205 -/

theorem letter_iff (c : Char) : letter c = true ↔ ('a' ≤ c ∧ c ≤ 'z') ∨ ('A' ≤ c ∧ c ≤ 'Z') := by simp [letter]

theorem validChar_iff (c : Char) : validChar c = true ↔ IdChar c := by
  simp [validChar, IdChar, letter_iff, or_assoc]

theorem cleaned_iff (t n : Text) : Cleaned t n ↔ n = t.filter validChar := by
  constructor
  · intro h
    induction h with
    | nil => rfl
    | keep c t n hc _ ih => rw [List.filter_cons_of_pos ((validChar_iff c).2 hc), ih]
    | drop c t n hc _ ih => rw [List.filter_cons_of_neg (by rw [validChar_iff]; exact hc), ih]
  · intro h
    subst h
    induction t with
    | nil => exact .nil
    | cons c t ih =>
      by_cases hc : validChar c = true
      · rw [List.filter_cons_of_pos hc]; exact .keep c t _ ((validChar_iff c).1 hc) ih
      · rw [List.filter_cons_of_neg hc]; exact .drop c t _ (by rw [← validChar_iff]; exact hc) ih

theorem identifier_iff (n : Text) (h : ∀ c ∈ n, IdChar c) : IsIdentifier n ↔ checked n = .ok n := by
  cases n with
  | nil => exact ⟨fun ⟨c, cs, hn, _⟩ => (by cases hn), fun h => by cases h⟩
  | cons c cs =>
    simp only [checked]
    by_cases hc : letter c = true
    · rw [if_pos hc]
      exact ⟨fun _ => rfl, fun _ => ⟨c, cs, rfl, (letter_iff c).1 hc, fun d hd => h d (List.mem_cons_of_mem _ hd)⟩⟩
    · rw [if_neg hc]
      refine ⟨?_, fun h => by cases h⟩
      rintro ⟨c', cs', he, h1, _⟩
      cases he
      exact absurd ((letter_iff c).2 h1) hc

/-- C205: the name taken from a title is the title without the characters that identifiers may not have; it is an identifier. If that is not one, the default name is
taken. -/
theorem C205_title_name (t default : Text) :
    (∀ n, Cleaned t n → IsIdentifier n → extractName (.text t) default = n) ∧
    (∀ n, Cleaned t n → ¬ IsIdentifier n → extractName (.text t) default = default) ∧
    (∃ n, Cleaned t n) := by
  have hall : ∀ c ∈ t.filter validChar, IdChar c := fun c hc => (validChar_iff c).1 (List.mem_filter.1 hc).2
  refine ⟨?_, ?_, ⟨_, (cleaned_iff t _).2 rfl⟩⟩
  · intro n hn hi
    rw [cleaned_iff] at hn
    subst hn
    rw [identifier_iff _ hall] at hi
    simp only [extractName, sanitize, hi]
  · intro n hn hi
    rw [cleaned_iff] at hn
    subst hn
    rw [identifier_iff _ hall] at hi
    simp only [extractName, sanitize]
    cases hc : checked (t.filter validChar) with
    | error e => rfl
    | ok m =>
      exfalso
      apply hi
      cases hf : t.filter validChar with
      | nil => rw [hf] at hc; cases hc
      | cons c cs =>
        rw [hf] at hc
        simp only [checked] at hc ⊢
        split at hc
        · next hl => rw [if_pos hl]
        · cases hc

/-- C205: identifiers are left as they are. -/
theorem C205_identifier_kept (t default : Text) (h : IsIdentifier t) : extractName (.text t) default = t := by
  have hall : ∀ c ∈ t, IdChar c := by
    rcases h with ⟨c, cs, rfl, h1, h2⟩
    intro d hd
    rcases List.mem_cons.1 hd with rfl | hd
    · rcases h1 with h1 | h1
      · exact .inl h1
      · exact .inr (.inl h1)
    · exact h2 d hd
  refine (C205_title_name t default).1 t ((cleaned_iff t t).2 ?_) h
  rw [List.filter_eq_self.2]
  intro c hc
  exact (validChar_iff c).2 (hall c hc)

example : extractName (.text "User profile (v2)".toList) "D".toList = "Userprofilev2".toList := by decide +kernel
example : extractName (.text "2nd".toList) "D".toList = "D".toList := by decide +kernel

/-! ### C206 -/

/-- The result as it depends on the module. -/
theorem loadModel_ok {G : Generator} {installed : Bool} {tmp : Path} {hash : Text → Text} {s : Schema} {modelName : Text} {o : Obj}
    (h : (loadModel G installed tmp hash s modelName).2 = .ok o) :
    ∃ j n m, prepare s modelName = .ok (j, n) ∧ G.generate j = some (some m) ∧ validModel o = true ∧
      (m n = some o ∨ (m n = none ∧ m "Model".toList = some o)) := by
  simp only [loadModel] at h
  split at h
  · split at h
    · cases h
    · next j n hp =>
      simp only [build, load] at h
      split at h
      · cases h
      · next m hm =>
        split at hm
        · cases hm
        · cases hm
        · next m' hg =>
          split at hm
          · cases hm
            split at h
            · cases h
            · next o' ho =>
              simp only [rebuild] at h
              split at h
              · cases h
                refine ⟨j, n, m, hp, hg, ?_⟩
                simp only [extractClass, useAttr] at ho
                split at ho
                · next x hx =>
                  split at ho
                  · cases ho; exact ⟨by assumption, .inl hx⟩
                  · cases ho
                · next hx =>
                  split at ho
                  · next x hx' =>
                    split at ho
                    · cases ho; exact ⟨by assumption, .inr ⟨hx, hx'⟩⟩
                    · cases ho
                  · cases ho
              · cases h
          · cases hm
  · cases h

/-- C206 (partial): a returned class is the attribute of the generated module named after the title (or the given name), or else its attribute `Model`; it is a class generated from the schema
unless that attribute is `BaseModel` itself. -/
theorem C206_result_partial (G : Generator) (installed : Bool) (tmp : Path) (hash : Text → Text) (s : Schema) (modelName : Text) (o : Obj)
    (h : (loadModel G installed tmp hash s modelName).2 = .ok o) :
    ∃ j n m, prepare s modelName = .ok (j, n) ∧ G.generate j = some (some m) ∧ (m n = some o ∨ (m n = none ∧ m "Model".toList = some o)) ∧
      ((∃ c, o = .generated c) ∨ o = .baseModel) := by
  rcases loadModel_ok h with ⟨j, n, m, h1, h2, h3, h4⟩
  refine ⟨j, n, m, h1, h2, h4, ?_⟩
  cases o with
  | generated c => exact .inl ⟨c, rfl⟩
  | baseModel => exact .inr rfl
  | other => cases h3

/-- A generator like the real one for a schema titled "BaseModel": the class is renamed, `BaseModel` is imported from pydantic. -/
def clashing : Generator where
  generate _ := some (some (fun a => if a = "BaseModel".toList then some .baseModel else if a = "BaseModelModel".toList then some (.generated "BaseModelModel".toList) else none))
  runs _ := true
  rebuilds _ := true

/-- C206 (violation): for a schema titled "BaseModel" the result is pydantic's `BaseModel`, not the generated class. -/
theorem C206_base_model_violation :
    (loadModel clashing true ⟨true, ["tmp".toList]⟩ (fun _ => ['7']) (.dict (.text "BaseModel".toList) (some [])) "M".toList).2 = .ok .baseModel := by
  decide +kernel

/-- A generator that, for a schema without a title, makes a class `Model`. -/
def untitled : Generator where
  generate _ := some (some (fun a => if a = "Model".toList then some (.generated "Model".toList) else none))
  runs _ := true
  rebuilds _ := true

/-- C206 (violation): the given name is not the name of the class. -/
theorem C206_name_violation :
    (loadModel untitled true ⟨true, ["tmp".toList]⟩ (fun _ => ['7']) (.dict .missing (some [])) "CustomModel".toList).2 = .ok (.generated "Model".toList) := by
  decide +kernel

/-- C206 exactly: the class that is returned, and when. -/
theorem C206_exact_partial (G : Generator) (installed : Bool) (tmp : Path) (hash : Text → Text) (s : Schema) (modelName : Text) (o : Obj) :
    (loadModel G installed tmp hash s modelName).2 = .ok o ↔
      installed = true ∧ ∃ j n m, prepare s modelName = .ok (j, n) ∧ G.generate j = some (some m) ∧ G.runs j = true ∧
        (m n = some o ∨ (m n = none ∧ m "Model".toList = some o)) ∧ ((∃ c, o = .generated c) ∨ o = .baseModel) ∧ G.rebuilds o = true := by
  have hv : validModel o = true ↔ ((∃ c, o = .generated c) ∨ o = .baseModel) := by cases o <;> simp [validModel]
  constructor
  · intro h
    cases installed with
    | false => simp [loadModel] at h
    | true =>
      refine ⟨rfl, ?_⟩
      rcases loadModel_ok h with ⟨j, n, m, h1, h2, h3, h4⟩
      have h5 : build G j n = .ok o := by simpa [loadModel, h1] using h
      simp only [build, load, h2] at h5
      by_cases hr : G.runs j = true
      · simp only [if_pos hr] at h5
        have h6 : extractClass m n = .ok o := by
          simp only [extractClass, useAttr]
          rcases h4 with h4 | ⟨h4, h4'⟩
          · simp only [h4, h3, if_true]
          · simp only [h4, h4', h3, if_true]
        simp only [h6, rebuild] at h5
        split at h5
        · next hb => exact ⟨j, n, m, h1, h2, hr, h4, hv.1 h3, hb⟩
        · cases h5
      · simp only [if_neg hr] at h5; cases h5
  · rintro ⟨rfl, j, n, m, h1, h2, hr, h4, h3, hb⟩
    have h3' := hv.2 h3
    have h6 : extractClass m n = .ok o := by
      simp only [extractClass, useAttr]
      rcases h4 with h4 | ⟨h4, h4'⟩
      · simp only [h4, h3', if_true]
      · simp only [h4, h4', h3', if_true]
    simp only [loadModel, h1, if_true, build, load, h2, hr, h6, rebuild, hb]

/-! ### C207 -/

/-- C207 (partial): the exceptions are the documented ones, with the documented causes, as long as the generator writes its file and the module has an attribute with the name or an attribute `Model`. -/
theorem C207_errors_partial (G : Generator) (installed : Bool) (tmp : Path) (hash : Text → Text) (s : Schema) (modelName : Text)
    (hg : ∀ j m, G.generate j = some m → ∃ a, m = some a)
    (hc : ∀ j n m, prepare s modelName = .ok (j, n) → G.generate j = some (some m) → m n ≠ none ∨ m "Model".toList ≠ none) :
    ((loadModel G installed tmp hash s modelName).2 = .error .importError ↔ installed = false) ∧
    (installed = true → ((loadModel G installed tmp hash s modelName).2 = .error .valueError ↔ (∃ t, s = .dict t none) ∨ ∃ t, s = .text t none)) ∧
    (installed = true → s = .other → (loadModel G installed tmp hash s modelName).2 = .error .typeError) ∧
    (loadModel G installed tmp hash s modelName).2 ≠ .error .fileNotFound ∧ (loadModel G installed tmp hash s modelName).2 ≠ .error .attributeError := by
  have hb : ∀ j n, prepare s modelName = .ok (j, n) → ∀ e, build G j n = .error e → e = .typeError ∨ e = .runtimeError := by
    intro j n hp e he
    simp only [build, load] at he
    cases hgj : G.generate j with
    | none => rw [hgj] at he; cases he; exact .inr rfl
    | some m =>
      rcases hg j m hgj with ⟨a, rfl⟩
      rw [hgj] at he
      simp only at he
      by_cases hr : G.runs j = true
      · rw [if_pos hr] at he
        simp only [extractClass, useAttr] at he
        have hc' := hc j n a hp hgj
        split at he
        · next e' he' =>
          cases he
          split at he'
          · split at he'
            · cases he'
            · cases he'; exact .inl rfl
          · next hn =>
            split at he'
            · split at he'
              · cases he'
              · cases he'; exact .inl rfl
            · next hn' => rcases hc' with h | h <;> contradiction
        · simp only [rebuild] at he
          split at he
          · cases he
          · cases he; exact .inr rfl
      · rw [if_neg hr] at he
        cases he
        exact .inr rfl
  cases installed with
  | false => simp [loadModel]
  | true =>
    cases hp : prepare s modelName with
    | error e =>
      have hv : (loadModel G true tmp hash s modelName).2 = .error e := by simp [loadModel, hp]
      rw [hv]
      cases s with
      | dict t j => cases j <;> simp [prepare] at hp; subst hp; simp
      | text t j => cases j <;> simp [prepare] at hp; subst hp; simp
      | other => simp [prepare] at hp; subst hp; simp
    | ok jn =>
      rcases jn with ⟨j, n⟩
      have hv : (loadModel G true tmp hash s modelName).2 = build G j n := by simp [loadModel, hp]
      rw [hv]
      have hbe := hb j n hp
      have hne : ∀ e, e ≠ Err.typeError → e ≠ .runtimeError → build G j n ≠ .error e := by
        intro e h1 h2 h3
        rcases hbe e h3 with h | h
        · exact h1 h
        · exact h2 h
      refine ⟨⟨fun h => absurd h (hne _ (by decide) (by decide)), fun h => (by cases h)⟩, fun _ => ⟨fun h => absurd h (hne _ (by decide) (by decide)), ?_⟩, ?_,
        hne _ (by decide) (by decide), hne _ (by decide) (by decide)⟩
      · rintro (⟨t, rfl⟩ | ⟨t, rfl⟩) <;> cases hp
      · intro _ hs
        subst hs
        cases hp

/-- The generated module is loaded and has neither an attribute with the name nor an attribute `Model`. -/
def NoClass (G : Generator) (j n : Text) : Prop := ∃ m, G.generate j = some (some m) ∧ G.runs j = true ∧ m n = none ∧ m "Model".toList = none

/-- The generated module is loaded and what it has under the name (or, if there is nothing, under `Model`) is not a model class. -/
def NotAModel (G : Generator) (j n : Text) : Prop :=
  ∃ m, G.generate j = some (some m) ∧ G.runs j = true ∧ (m n = some .other ∨ (m n = none ∧ m "Model".toList = some .other))

theorem useAttr_error (o : Obj) (e : Err) : useAttr o = .error e ↔ e = .typeError ∧ o = .other := by
  cases o <;> simp [useAttr, validModel, eq_comm]

theorem rebuild_error (G : Generator) (o : Obj) (e : Err) (h : rebuild G o = .error e) : e = .runtimeError := by
  unfold rebuild at h
  by_cases hr : G.rebuilds o = true
  · rw [if_pos hr] at h; cases h
  · rw [if_neg hr] at h; cases h; rfl

theorem extractClass_error (m : Text → Option Obj) (n : Text) (e : Err) : extractClass m n = .error e ↔
    (e = .attributeError ∧ m n = none ∧ m "Model".toList = none) ∨ (e = .typeError ∧ (m n = some .other ∨ (m n = none ∧ m "Model".toList = some .other))) := by
  unfold extractClass
  cases h1 : m n with
  | some o => simp [useAttr_error]
  | none =>
    cases h2 : m "Model".toList with
    | some o => simp [useAttr_error]
    | none => simp [eq_comm]

theorem build_error (G : Generator) (j n : Text) : (build G j n = .error .fileNotFound ↔ G.generate j = some none) ∧ (build G j n = .error .attributeError ↔ NoClass G j n) ∧
    (build G j n = .error .typeError ↔ NotAModel G j n) := by
  unfold build load NoClass NotAModel
  cases hg : G.generate j with
  | none => simp
  | some a =>
    cases a with
    | none => simp
    | some m =>
      by_cases hr : G.runs j = true
      · simp only [hr, if_true, Option.some.injEq]
        cases hx : extractClass m n with
        | error e =>
          have hm := (extractClass_error m n e).1 hx
          rcases hm with ⟨rfl, h1, h2⟩ | ⟨rfl, h⟩
          · have h3 : m ['M', 'o', 'd', 'e', 'l'] = none := h2
            simp [h1, h3]
          · rcases h with h | ⟨h1, h2⟩
            · simp [h]
            · have h3 : m ['M', 'o', 'd', 'e', 'l'] = some .other := h2
              simp [h1, h3]
        | ok o =>
          have hn : ∀ e, extractClass m n ≠ .error e := fun e he => by rw [hx] at he; cases he
          have hne : ∀ e, e ≠ Err.runtimeError → rebuild G o ≠ .error e := fun e h1 h2 => h1 (rebuild_error G o e h2)
          refine ⟨⟨fun h => absurd h (hne _ (by decide)), fun h => (by cases h)⟩, ⟨fun h => absurd h (hne _ (by decide)), ?_⟩, ⟨fun h => absurd h (hne _ (by decide)), ?_⟩⟩
          · rintro ⟨m', rfl, _, h⟩
            exact absurd ((extractClass_error m n _).2 (.inl ⟨rfl, h⟩)) (hn _)
          · rintro ⟨m', rfl, _, h⟩
            exact absurd ((extractClass_error m n _).2 (.inr ⟨rfl, h⟩)) (hn _)
      · simp [hr]

/-- C207 (partial), the exact condition: `FileNotFoundError` comes exactly if the generator returns without writing its file, `AttributeError` exactly if the module has neither the name nor `Model`; and
`TypeError` comes for a schema of the wrong type and, besides, exactly if what is found there is not a model class. -/
theorem C207_exact_partial (G : Generator) (tmp : Path) (hash : Text → Text) (s : Schema) (modelName : Text) :
    ((loadModel G true tmp hash s modelName).2 = .error .fileNotFound ↔ ∃ j n, prepare s modelName = .ok (j, n) ∧ G.generate j = some none) ∧
    ((loadModel G true tmp hash s modelName).2 = .error .attributeError ↔ ∃ j n, prepare s modelName = .ok (j, n) ∧ NoClass G j n) ∧
    ((loadModel G true tmp hash s modelName).2 = .error .typeError ↔ s = .other ∨ ∃ j n, prepare s modelName = .ok (j, n) ∧ NotAModel G j n) := by
  cases hp : prepare s modelName with
  | error e =>
    have hv : (loadModel G true tmp hash s modelName).2 = .error e := by simp [loadModel, hp]
    rw [hv]
    cases s with
    | dict t j => cases j <;> simp [prepare] at hp; subst hp; simp
    | text t j => cases j <;> simp [prepare] at hp; subst hp; simp
    | other => simp [prepare] at hp; subst hp; simp
  | ok jn =>
    rcases jn with ⟨j, n⟩
    have hv : (loadModel G true tmp hash s modelName).2 = build G j n := by simp [loadModel, hp]
    have ho : s ≠ .other := by intro e; subst e; cases hp
    obtain ⟨b1, b2, b3⟩ := build_error G j n
    have key : ∀ P : Text → Text → Prop, (∃ j' n', (Except.ok (j, n) : Except Err (Text × Text)) = .ok (j', n') ∧ P j' n') ↔ P j n := by
      intro P
      constructor
      · rintro ⟨j', n', h, hP⟩; cases h; exact hP
      · exact fun h => ⟨j, n, rfl, h⟩
    rw [hv]
    refine ⟨b1.trans (key (fun j' _ => G.generate j' = some none)).symm, b2.trans (key (NoClass G)).symm, b3.trans ?_⟩
    exact ⟨fun h => .inr ((key (NotAModel G)).2 h), fun h => h.elim (fun e => absurd e ho) (key (NotAModel G)).1⟩

/-- A generator that writes no file, and one whose module has something else under the name. -/
example : (loadModel ⟨fun _ => some none, fun _ => true, fun _ => true⟩ true ⟨true, ["tmp".toList]⟩ (fun _ => ['7']) (.dict (.text "A".toList) (some [])) "M".toList).2 = .error .fileNotFound ∧
    (loadModel ⟨fun _ => some (some fun _ => some .other), fun _ => true, fun _ => true⟩ true ⟨true, ["tmp".toList]⟩ (fun _ => ['7']) (.dict (.text "A".toList) (some [])) "M".toList).2 =
      .error .typeError := ⟨rfl, rfl⟩

/-- A generator that, like the real one, makes the class `UserProfile` for the title "user profile". -/
def camel : Generator where
  generate _ := some (some (fun a => if a = "UserProfile".toList then some (.generated "UserProfile".toList) else none))
  runs _ := true
  rebuilds _ := true

/-- C207 (violation): for a title in lower case the class is not found and the call raises `AttributeError`. -/
theorem C207_attribute_violation :
    (loadModel camel true ⟨true, ["tmp".toList]⟩ (fun _ => ['7']) (.dict (.text "user profile".toList) (some [])) "M".toList).2 = .error .attributeError := by
  decide +kernel

/-- Non-vacuity. -/
example : (loadModel untitled true ⟨true, ["tmp".toList]⟩ (fun _ => ['7']) (.text [] (some .other)) "M".toList).2 = .ok (.generated "Model".toList) := by
  decide +kernel

/-! ### C208 -/

theorem lower_slash {t : Text} (h : '/' ∉ t) : '/' ∉ lower t := by
  intro hm
  simp only [lower, List.mem_map] at hm
  rcases hm with ⟨c, hc, he⟩
  have : c = '/' := by
    unfold Char.toLower at he
    split at he
    · next hcase =>
      exfalso
      have h1 : c.val + 32 = ('/' : Char).val := congrArg Char.val he
      have h2 := hcase.1
      have h3 : c.val.toNat + 32 = 47 := by
        have := congrArg UInt32.toNat h1
        rw [UInt32.toNat_add] at this
        have hlt : c.val.toNat ≤ 90 := by have := hcase.2; simpa using (UInt32.le_iff_toNat_le.1 this)
        have : (c.val.toNat + 32) % 2 ^ 32 = 47 := by simpa using this
        omega
      have h4 : 65 ≤ c.val.toNat := by simpa using (UInt32.le_iff_toNat_le.1 h2)
      omega
    · exact he
  exact h (this ▸ hc)

/-- C208 (partial): a file is written in the temporary directory itself if the name used contains no slash, as is the case for names taken from titles. -/
theorem C208_file_partial (G : Generator) (installed : Bool) (tmp : Path) (hash : Text → Text) (s : Schema) (modelName : Text) (p : Path)
    (hn : '/' ∉ modelName) (hh : ∀ j, '/' ∉ hash j) (h : (loadModel G installed tmp hash s modelName).1 = some p) :
    Inside tmp p ∧ p.parts.length = tmp.parts.length + 1 := by
  simp only [loadModel] at h
  split at h
  · split at h
    · cases h
    · next j n hp =>
      simp only [Option.some.injEq] at h
      have hname : ∀ title, '/' ∉ extractName title modelName := by
        intro title
        cases title with
        | missing => exact hn
        | other => exact hn
        | text t =>
          rcases C205_title_name t modelName with ⟨h1, h2, n', h3⟩
          by_cases hi : IsIdentifier n'
          · rw [h1 n' h3 hi]
            rw [cleaned_iff] at h3
            subst h3
            intro hm
            have := (List.mem_filter.1 hm).2
            exact absurd this (by decide)
          · rw [h2 n' h3 hi]; exact hn
      have hns : '/' ∉ n := by
        cases s with
        | dict t j' => cases j' <;> simp [prepare] at hp; rw [← hp.2]; exact hname _
        | text t j' => cases j' <;> simp [prepare] at hp; rw [← hp.2]; exact hname _
        | other => cases hp
      have hslash : '/' ∉ lower n ++ "_model_".toList ++ hash j ++ ".py".toList := by
        intro hm
        simp only [List.mem_append] at hm
        rcases hm with ((hm | hm) | hm) | hm
        · exact lower_slash hns hm
        · exact absurd hm (by decide)
        · exact hh j hm
        · exact absurd hm (by decide)
      have hlen : 10 ≤ (lower n ++ "_model_".toList ++ hash j ++ ".py".toList).length := by
        simp only [List.length_append]
        have h1 : ("_model_".toList).length = 7 := by decide
        have h2 : (".py".toList).length = 3 := by decide
        omega
      have hplain : Plain (lower n ++ "_model_".toList ++ hash j ++ ".py".toList) := by
        refine ⟨?_, ?_, ?_, hslash⟩ <;> intro he <;> rw [he] at hlen <;> simp at hlen
      have hna : CreatePath.isAbs (lower n ++ "_model_".toList ++ hash j ++ ".py".toList) = false := by
        cases hx : lower n ++ "_model_".toList ++ hash j ++ ".py".toList with
        | nil => rfl
        | cons c cs =>
          have hc : c ≠ '/' := by
            intro e
            rw [hx, e] at hslash
            exact hslash List.mem_cons_self
          unfold CreatePath.isAbs
          split
          · next h' => cases h'; exact absurd rfl hc
          · rfl
      have hp' : p = ⟨tmp.abs, tmp.parts ++ [lower n ++ "_model_".toList ++ hash j ++ ".py".toList]⟩ := by
        rw [← h, outputFile, Path.join, hna, CreatePath.components_plain hplain]
        rfl
      rw [hp']
      refine ⟨⟨_, rfl, by simp, ?_⟩, by simp⟩
      intro t ht
      rw [List.mem_singleton] at ht
      rw [ht]; exact hplain
  · cases h

/-- C208 (violation): a given name with "../" leads out of the temporary directory. -/
theorem C208_escape_violation :
    (loadModel untitled true ⟨true, ["tmp".toList, "d".toList]⟩ (fun _ => ['7']) (.dict .missing (some [])) "../../home/x".toList).1 =
      some ⟨true, ["tmp".toList, "d".toList, "..".toList, "..".toList, "home".toList, "x_model_7.py".toList]⟩ := by
  decide +kernel

end Verif.SchemaModel
