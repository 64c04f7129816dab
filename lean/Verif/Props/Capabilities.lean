import Verif.Props.LndlEnd

set_option linter.unusedSectionVars false
set_option linter.unusedSimpArgs false
set_option linter.unusedVariables false

/-!
# C274: capabilities act as a smaller operable
-/

namespace Verif.Fuzzy

open Verif.Resolver (Ext Output Spec LvarMeta LactMeta)
open Verif.Parser (Str OutVal)

variable {ν κ μ : Type}

/-- The same operable, but with other specs. -/
def Env.only (env : Env) (ss : List Spec) : Env := { env with specs := ss }

theorem modelCorr_only (env : Env) (ss : List Spec) (th : Thresholds) (sm : Dict Str (Spec × Bool)) :
    ∀ (ls : List LvarMeta) (d : Dict Str Str), modelCorr (env.only ss) th sm ls d = modelCorr env th sm ls d := by
  intro ls
  induction ls with
  | nil => intro d; rfl
  | cons l ls ih =>
    intro d
    have : modelStep (env.only ss) th sm d l = modelStep env th sm d l := rfl
    simp only [modelCorr, this, ih]

theorem fieldCorr_only (env : Env) (ss : List Spec) (th : Thresholds) (names : List Str) (sm : Dict Str (Spec × Bool)) (mc : Dict Str Str) :
    ∀ (ls : List LvarMeta) (d : Dict (Str × Str) Str), fieldCorr (env.only ss) th names sm mc ls d = fieldCorr env th names sm mc ls d := by
  intro ls
  induction ls with
  | nil => intro d; rfl
  | cons l ls ih =>
    intro d
    have : fieldStep (env.only ss) th names sm mc d l = fieldStep env th names sm mc d l := rfl
    simp only [fieldCorr, this, ih]

theorem fixOut_only (env : Env) (ss : List Spec) (th : Thresholds) (names : List Str) :
    ∀ (ls : List (Str × OutVal)) (d : Dict Str OutVal), fixOut (env.only ss) th names ls d = fixOut env th names ls d := by
  intro ls
  induction ls with
  | nil => intro d; rfl
  | cons l ls ih =>
    intro d
    simp only [fixOut, ih]
    rfl

theorem fixRefs_only (env : Env) (ss : List Spec) (th : Thresholds) (avail : List Str) :
    ∀ (ls : List Str), fixRefs (env.only ss) th avail ls = fixRefs env th avail ls := by
  intro ls
  induction ls with
  | nil => rfl
  | cons l ls ih =>
    simp only [fixRefs, ih]
    rfl

theorem fixVals_only (env : Env) (ss : List Spec) (th : Thresholds) (avail : List Str) :
    ∀ (ls : List (Str × OutVal)), fixVals (env.only ss) th avail ls = fixVals env th avail ls := by
  intro ls
  induction ls with
  | nil => rfl
  | cons l ls ih =>
    have : fixVal (env.only ss) th avail l.2 = fixVal env th avail l.2 := by
      cases hv : l.2 <;> simp only [fixVal, fixRefs_only]
    simp only [fixVals, ih, this]

theorem fuzzyCore_only (env : Env) (ss : List Spec) (ext : Ext ν κ μ) (th : Thresholds) (specs : List Spec) (names : List Str) (x : Fixed) :
    fuzzyCore (env.only ss) ext th specs names x = fuzzyCore env ext th specs names x := by
  have h1 : strictOk (env.only ss) names (specMap env.opName specs) x.out x.lvars x.lacts = strictOk env names (specMap env.opName specs) x.out x.lvars x.lacts := rfl
  have h2 : correctAll (env.only ss) th names (specMap env.opName specs) x.out x.lvars x.lacts = correctAll env th names (specMap env.opName specs) x.out x.lvars x.lacts := by
    simp only [correctAll, correctOut, modelCorr_only, fieldCorr_only, fixOut_only, fixVals_only]
  have h3 : (env.only ss).opName = env.opName := rfl
  simp only [fuzzyCore, h3, h1, h2]

/-- The specs that carry the given names, in the order of the names. -/
def named (specs : List Spec) (cs : List Str) : List Spec := cs.filterMap (fun c => specs.find? (fun s => decide (s.name = some c)))

theorem get_find (specs : List Spec) (c : Str) : Operable.get Spec.name specs c = specs.find? (fun s => decide (s.name = some c)) := by
  have h : ∀ l : List Spec, Operable.findName Spec.name c l = l.find? (fun s => decide (s.name = some c)) := by
    intro l
    induction l with
    | nil => rfl
    | cons s l ih =>
      simp only [Operable.findName, List.find?_cons]
      by_cases hc : s.name = some c
      · rw [if_pos hc]; simp [hc]
      · rw [if_neg hc]; simp [hc, ih]
  unfold Operable.get
  split
  · exact h specs
  · next hn =>
    symm
    rw [List.find?_eq_none]
    intro s hs hc
    exact hn ((Operable.checkAllowed_iff _ _ _).2 (fun a ha => ⟨s, hs, by rw [List.mem_singleton.1 ha]; exact of_decide_eq_true hc⟩))

theorem names_named (specs : List Spec) : ∀ cs : List Str, (∀ c ∈ cs, ∃ s ∈ specs, s.name = some c) → specNames (named specs cs) = cs := by
  intro cs
  induction cs with
  | nil => intro _; rfl
  | cons c cs ih =>
    intro h
    obtain ⟨s, hs, hc⟩ := h c List.mem_cons_self
    cases hf : specs.find? (fun s => decide (s.name = some c)) with
    | none =>
      rw [List.find?_eq_none] at hf
      exact absurd (decide_eq_true hc) (hf s hs)
    | some t =>
      have ht : t.name = some c := of_decide_eq_true (List.find?_some (p := fun s : Spec => decide (s.name = some c)) hf)
      have := ih (fun c' h' => h c' (List.mem_cons_of_mem _ h'))
      simp only [named, List.filterMap_cons, hf, specNames, ht] at this ⊢
      rw [this]

theorem active_some (env : Env) (cs : List Str) (hne : cs ≠ []) (h : ∀ c ∈ cs, ∃ s ∈ env.specs, s.name = some c) :
    active env (some cs) = .ok (named env.specs cs.eraseDups, cs.eraseDups) := by
  have hc : Operable.checkAllowed Spec.name env.specs cs = true := (Operable.checkAllowed_iff _ _ _).2 h
  have hc' : Operable.checkAllowed Spec.name env.specs cs.eraseDups = true :=
    (Operable.checkAllowed_iff _ _ _).2 (fun c hm => h c (List.mem_eraseDups.1 hm))
  have hne' : cs.eraseDups ≠ [] := by
    cases cs with
    | nil => exact absurd rfl hne
    | cons a l => rw [List.eraseDups_cons]; simp
  have hg : Operable.getSpecs Spec.name env.specs (some cs.eraseDups) none = .ok (named env.specs cs.eraseDups) := by
    have hfun : Operable.get Spec.name env.specs = fun c => env.specs.find? (fun s => decide (s.name = some c)) := funext (get_find env.specs)
    simp only [Operable.getSpecs, Option.isSome_some, Option.isSome_none, Option.getD_some, named, hfun]
    rw [if_neg (by simp), if_pos hne', if_pos hc']
  simp only [active, hc, if_true, hg]

theorem active_error (env : Env) (cs : List Str) (c : Str) (hc : c ∈ cs) (h : ∀ s ∈ env.specs, s.name ≠ some c) : active env (some cs) = .error .value := by
  have : Operable.checkAllowed Spec.name env.specs cs = false := by
    cases hk : Operable.checkAllowed Spec.name env.specs cs with
    | false => rfl
    | true =>
      obtain ⟨s, hs, hn⟩ := (Operable.checkAllowed_iff _ _ _).1 hk c hc
      exact absurd hn (h s hs)
  simp [active, this]

end Verif.Fuzzy

namespace Verif.Lndl

open Verif.Resolver (Ext Output Spec)
open Verif.Parser (Str)
open Verif.Lexer (CharClass)

variable {ν κ μ : Type}

/-- C274: with a non-empty list of capabilities that all name specs, the fuzzy parser does what it does with the operable that has only these specs. -/
theorem C274_smaller_operable (cc : CharClass) (env : Parser.Env) (fenv : Fuzzy.Env) (ext : Ext ν κ μ) (th : Fuzzy.Thresholds) (cs : List Str) (hne : cs ≠ [])
    (h : ∀ c ∈ cs, ∃ s ∈ fenv.specs, s.name = some c) (response : Str) :
    parseLndlFuzzy cc env fenv ext th (some cs) response =
      parseLndlFuzzy cc env (fenv.only (Fuzzy.named fenv.specs cs.eraseDups)) ext th none response := by
  have hn : Fuzzy.specNames (Fuzzy.named fenv.specs cs.eraseDups) = cs.eraseDups := Fuzzy.names_named _ _ (fun c hc => h c (List.mem_eraseDups.1 hc))
  have ha := Fuzzy.active_some fenv cs hne h
  have hb : Fuzzy.active (fenv.only (Fuzzy.named fenv.specs cs.eraseDups)) none = .ok (Fuzzy.named fenv.specs cs.eraseDups, cs.eraseDups) := by
    simp only [Fuzzy.active, Fuzzy.Env.only, hn]
  simp only [parseLndlFuzzy, afterParsingFuzzy, Fuzzy.parseFuzzy, ha, hb, Fuzzy.fuzzyCore_only]

/-- C274: a capability that names no spec raises `ValueError`, whatever the response says. -/
theorem C274_unknown (cc : CharClass) (env : Parser.Env) (fenv : Fuzzy.Env) (ext : Ext ν κ μ) (th : Fuzzy.Thresholds) (cs : List Str) (c : Str) (hc : c ∈ cs)
    (h : ∀ s ∈ fenv.specs, s.name ≠ some c) (response : Str) :
    parseLndlFuzzy cc env fenv ext th (some cs) response = .error (.fuzzy .value) := by
  simp only [parseLndlFuzzy, Fuzzy.active_error fenv cs c hc h]

/-- The specs that are left are those named, each once. -/
theorem C274_left (specs : List Spec) (cs : List Str) (h : ∀ c ∈ cs, ∃ s ∈ specs, s.name = some c) :
    Fuzzy.specNames (Fuzzy.named specs cs.eraseDups) = cs.eraseDups ∧ ∀ s ∈ Fuzzy.named specs cs.eraseDups, s ∈ specs := by
  refine ⟨Fuzzy.names_named _ _ (fun c hc => h c (List.mem_eraseDups.1 hc)), ?_⟩
  intro s hs
  obtain ⟨c, _, hf⟩ := List.mem_filterMap.1 hs
  exact List.mem_of_find?_eq_some hf

/-- A document that only gives a title, read with the capability to give a title; the operable also requires a number. -/
example : (∀ c ∈ ["title".toList], ∃ s ∈ sampleFuzzy.specs, s.name = some c) ∧ sampleFuzzy.specs.length = 3 ∧
    parseLndlFuzzy Lexer.asciiClass Parser.asciiEnv sampleFuzzy Resolver.demoExt ⟨1, 1, 1, 1, 1⟩ (some ["title".toList]) "OUT{title: \"a\"}".toList =
      .ok ⟨[("title".toList, .scalar ['a'])], []⟩ ∧
    parseLndlFuzzy Lexer.asciiClass Parser.asciiEnv sampleFuzzy Resolver.demoExt ⟨1, 1, 1, 1, 1⟩ none "OUT{title: \"a\"}".toList ≠
      .ok ⟨[("title".toList, .scalar ['a'])], []⟩ := by
  refine ⟨by decide, by decide, by decide +kernel, by decide +kernel⟩

/-- The domain is needed: an empty list of capabilities still requires the required specs of the whole operable, while the operable without specs takes an
empty `OUT{}`. -/
theorem C274_empty_limit : parseLndlFuzzy Lexer.asciiClass Parser.asciiEnv sampleFuzzy Resolver.demoExt ⟨1, 1, 1, 1, 1⟩ (some []) "OUT{}".toList =
      .error (.fuzzy (.strict .missing)) ∧
    parseLndlFuzzy Lexer.asciiClass Parser.asciiEnv (sampleFuzzy.only []) Resolver.demoExt ⟨1, 1, 1, 1, 1⟩ none "OUT{}".toList = .ok ⟨[], []⟩ := by
  refine ⟨by decide +kernel, by decide +kernel⟩

end Verif.Lndl
