import Verif.Model.LndlValue
import Verif.Props.Resolver

/-!
# C247-C249: what arrives in text, boolean and integer fields of an LNDL output
-/

set_option linter.unusedSectionVars false
set_option linter.unusedSimpArgs false
set_option linter.unusedVariables false

namespace Verif.LndlValue

open Verif.Parser (Str OutVal)
open Verif.Resolver (FErr Ext Spec LvarMeta LactMeta Output resolve)
open Verif.ToNum (F)
open Verif.Py (White)

variable {κ μ : Type}

/-! ### Specification -/

/-- `s` is the text `t` without the white space around it. -/
def Stripped (t s : Str) : Prop :=
  ∃ l r, t = l ++ (s ++ r) ∧ (∀ c ∈ l, White c) ∧ (∀ c ∈ r, White c) ∧ (∀ c, s.head? = some c → ¬ White c) ∧ (∀ c, s.getLast? = some c → ¬ White c)

/-- `s` is the word `w`, in small or capital letters. -/
def Word (w : String) (s : Str) : Prop := s.map Char.toLower = w.toList

/-- None of the three words. -/
def Plain (s : Str) : Prop := ¬ Word "true" s ∧ ¬ Word "false" s ∧ ¬ Word "null" s

/-- What a text stands for: one of the three words, a Python literal, or itself. -/
inductive Reads (env : Env) (s : Str) : Val → Prop where
  | yes : Word "true" s → Reads env s (.bool true)
  | no : Word "false" s → Reads env s (.bool false)
  | nothing : Word "null" s → Reads env s .none_
  | literal (v : Val) : Plain s → env.literal s = .val v → Reads env s v
  | text : Plain s → env.literal s = .refused → Reads env s (.str s)

/-- The text Python's `str` gives for a value. -/
inductive Shown (env : Env) : Val → Str → Prop where
  | none_ : Shown env .none_ "None".toList
  | true_ : Shown env (.bool true) "True".toList
  | false_ : Shown env (.bool false) "False".toList
  | int (n : Int) : Shown env (.int n) (toString n).toList
  | float (x : F) : Shown env (.float x) (env.showFloat x)
  | str (s : Str) : Shown env (.str s) s
  | other (k : Nat) : Shown env (.other k) (env.showOther k)

/-- The values Python counts as false. -/
inductive Falsy (env : Env) : Val → Prop where
  | none_ : Falsy env .none_
  | false_ : Falsy env (.bool false)
  | zero : Falsy env (.int 0)
  | fzero : Falsy env (.float (.fin 0))
  | empty : Falsy env (.str [])
  | other (k : Nat) : env.truthy k = false → Falsy env (.other k)

/-- The value is the number `q`. -/
inductive Denotes (env : Env) : Val → Rat → Prop where
  | int (n : Int) : Denotes env (.int n) n
  | float (q : Rat) : Denotes env (.float (.fin q)) q
  | text (s : Str) (n : Int) : env.intText s = some n → Denotes env (.str s) n

/-- The text that is written for the field `f`: the content of the only variable referenced, or a string literal. -/
inductive Written (out : Dict Str OutVal) (lvars : Dict Str LvarMeta) (lacts : Dict Str LactMeta) (f : Str) : Str → Prop where
  | var (n : Str) (l : LvarMeta) : (f, OutVal.refs [n]) ∈ out → lacts.get? n = none → lvars.get? n = some l → Written out lvars lacts f l.value
  | literal (t : Str) : (f, OutVal.str t) ∈ out → Written out lvars lacts f t

/-- Every spec of this name has the scalar type `t` (names of an `Operable` are unique). -/
def HasType (specs : List Spec) (f : Str) (t : Nat) : Prop := ∀ s ∈ specs, s.name = some f → s.ty = .scalar t

/-! ### Lemmas -/

theorem dropWhile_split (p : Char → Bool) (t : Str) : ∃ l, t = l ++ t.dropWhile p ∧ (∀ c ∈ l, p c = true) ∧ ∀ c, (t.dropWhile p).head? = some c → p c = false := by
  induction t with
  | nil => exact ⟨[], rfl, by simp, by simp⟩
  | cons a t ih =>
    cases ha : p a with
    | true =>
      obtain ⟨l, h1, h2, h3⟩ := ih
      rw [List.dropWhile_cons_of_pos ha]
      exact ⟨a :: l, by rw [List.cons_append, ← h1], by simpa [ha] using h2, h3⟩
    | false =>
      rw [List.dropWhile_cons_of_neg (by simp [ha])]
      exact ⟨[], rfl, by simp, by simp [ha]⟩

theorem strip_stripped (t : Str) : Stripped t (strip t) := by
  obtain ⟨l, h1, h2, h3⟩ := dropWhile_split Py.isSpace t
  obtain ⟨r, h4, h5, h6⟩ := dropWhile_split Py.isSpace (t.dropWhile Py.isSpace).reverse
  have e : t.dropWhile Py.isSpace = strip t ++ r.reverse := by
    have := congrArg List.reverse h4
    rw [List.reverse_reverse, List.reverse_append] at this
    exact this
  refine ⟨l, r.reverse, by rw [← e]; exact h1, ?_, ?_, ?_, ?_⟩
  · intro c hc; exact (Py.isSpace_iff c).1 (h2 c hc)
  · intro c hc; exact (Py.isSpace_iff c).1 (h5 c (List.mem_reverse.1 hc))
  · intro c hc hw
    have : (t.dropWhile Py.isSpace).head? = some c := by rw [e, List.head?_append, hc]; rfl
    have := h3 c this
    rw [(Py.isSpace_iff c).2 hw] at this; cases this
  · intro c hc hw
    unfold strip at hc
    rw [List.getLast?_reverse] at hc
    have := h6 c hc
    rw [(Py.isSpace_iff c).2 hw] at this; cases this

theorem stripped_eq {t s : Str} (h : Stripped t s) : strip t = s := by
  obtain ⟨l, r, rfl, hl, hr, hh, ht⟩ := h
  have dropAll : ∀ (l m : Str), (∀ c ∈ l, Py.isSpace c = true) → (l ++ m).dropWhile Py.isSpace = m.dropWhile Py.isSpace := by
    intro l m h
    induction l with
    | nil => rfl
    | cons a l ih =>
      rw [List.cons_append, List.dropWhile_cons_of_pos (h a List.mem_cons_self)]
      exact ih (fun c hc => h c (List.mem_cons_of_mem _ hc))
  have stop : ∀ (m : Str), (∀ c, m.head? = some c → ¬ White c) → m.dropWhile Py.isSpace = m := by
    intro m h
    cases m with
    | nil => rfl
    | cons a m => exact List.dropWhile_cons_of_neg (fun hw => h a rfl ((Py.isSpace_iff a).1 hw))
  unfold strip
  rw [dropAll l _ (fun c hc => (Py.isSpace_iff c).2 (hl c hc))]
  cases s with
  | nil =>
    have : (([] : Str) ++ r).dropWhile Py.isSpace = [] := by
      have := dropAll r [] (fun c hc => (Py.isSpace_iff c).2 (hr c hc))
      rw [List.append_nil] at this
      exact this
    rw [this]; rfl
  | cons a s =>
    rw [stop ((a :: s) ++ r) (by intro c hc; exact hh c (by simpa using hc)), List.reverse_append,
      dropAll r.reverse _ (fun c hc => (Py.isSpace_iff c).2 (hr c (List.mem_reverse.1 hc))), stop (a :: s).reverse (by
        intro c hc
        rw [List.head?_reverse] at hc
        exact ht c hc), List.reverse_reverse]

theorem saysWord_iff (w : String) (s : Str) : saysWord w.toList s = true ↔ Word w s := by
  unfold saysWord Word
  rw [beq_iff_eq]

theorem word_one {w w' : String} {s : Str} (h : Word w s) (h' : Word w' s) : w.toList = w'.toList := h.symm.trans h'

theorem parseStripped_iff (env : Env) (s : Str) (v : Val) : parseStripped env s = .ok v ↔ Reads env s v := by
  have ht := saysWord_iff "true" s
  have hf := saysWord_iff "false" s
  have hn := saysWord_iff "null" s
  have e1 : "true".toList = ['t', 'r', 'u', 'e'] := by decide
  have e2 : "false".toList = ['f', 'a', 'l', 's', 'e'] := by decide
  have e3 : "null".toList = ['n', 'u', 'l', 'l'] := by decide
  have d12 : "true".toList ≠ "false".toList := by decide
  have d13 : "true".toList ≠ "null".toList := by decide
  have d23 : "false".toList ≠ "null".toList := by decide
  rw [e1] at ht; rw [e2] at hf; rw [e3] at hn
  unfold parseStripped
  by_cases h1 : saysWord ['t', 'r', 'u', 'e'] s = true
  · rw [if_pos h1]
    constructor
    · intro h; cases h; exact .yes (ht.1 h1)
    · intro h
      cases h with
      | yes => rfl
      | no h => exact absurd (word_one (ht.1 h1) h) d12
      | nothing h => exact absurd (word_one (ht.1 h1) h) d13
      | literal v h => exact absurd (ht.1 h1) h.1
      | text h => exact absurd (ht.1 h1) h.1
  · rw [if_neg h1]
    by_cases h2 : saysWord ['f', 'a', 'l', 's', 'e'] s = true
    · rw [if_pos h2]
      constructor
      · intro h; cases h; exact .no (hf.1 h2)
      · intro h
        cases h with
        | yes h => exact absurd (word_one h (hf.1 h2)) d12
        | no h => rfl
        | nothing h => exact absurd (word_one (hf.1 h2) h) d23
        | literal v h => exact absurd (hf.1 h2) h.2.1
        | text h => exact absurd (hf.1 h2) h.2.1
    · rw [if_neg h2]
      by_cases h3 : saysWord ['n', 'u', 'l', 'l'] s = true
      · rw [if_pos h3]
        constructor
        · intro h; cases h; exact .nothing (hn.1 h3)
        · intro h
          cases h with
          | yes h => exact absurd (word_one h (hn.1 h3)) d13
          | no h => exact absurd (word_one h (hn.1 h3)) d23
          | nothing h => rfl
          | literal v h => exact absurd (hn.1 h3) h.2.2
          | text h => exact absurd (hn.1 h3) h.2.2
      · rw [if_neg h3]
        have hp : Plain s := ⟨fun h => h1 (ht.2 h), fun h => h2 (hf.2 h), fun h => h3 (hn.2 h)⟩
        constructor
        · intro h
          cases hl : env.literal s with
          | val w => rw [hl] at h; cases h; exact .literal _ hp hl
          | refused => rw [hl] at h; cases h; exact .text hp hl
          | raised => rw [hl] at h; cases h
        · intro h
          cases h with
          | yes h => exact absurd h hp.1
          | no h => exact absurd h hp.2.1
          | nothing h => exact absurd h hp.2.2
          | literal v _ h => rw [h]; rfl
          | text _ h => rw [h]; rfl

theorem parseValue_iff (env : Env) (t : Str) (v : Val) : parseValue env t = .ok v ↔ ∃ s, Stripped t s ∧ Reads env s v := by
  unfold parseValue
  rw [parseStripped_iff]
  constructor
  · intro h; exact ⟨strip t, strip_stripped t, h⟩
  · rintro ⟨s, h1, h2⟩; rw [stripped_eq h1]; exact h2

theorem reads_unique {env : Env} {s : Str} {v w : Val} (h : Reads env s v) (h' : Reads env s w) : v = w := by
  have h := (parseStripped_iff env s v).2 h
  have h' := (parseStripped_iff env s w).2 h'
  rw [h] at h'; cases h'; rfl

theorem toStr_iff (env : Env) (v : Val) (s : Str) : toStr env v = s ↔ Shown env v s := by
  constructor
  · intro h
    subst h
    cases v with
    | none_ => exact .none_
    | bool b => cases b with | true => exact .true_ | false => exact .false_
    | int n => exact .int n
    | float x => exact .float x
    | str s => exact .str s
    | other k => exact .other k
  · intro h
    cases h with
    | none_ => rfl
    | true_ => rfl
    | false_ => rfl
    | int n => rfl
    | float => rfl
    | str => rfl
    | other => rfl

theorem toBool_iff (env : Env) (v : Val) : toBool env v = false ↔ Falsy env v := by
  constructor
  · intro h
    cases v with
    | none_ => exact .none_
    | bool b => cases h; exact .false_
    | int n =>
      simp [toBool] at h; subst h; exact .zero
    | float x => simp [toBool] at h; subst h; exact .fzero
    | str s => simp [toBool] at h; subst h; exact .empty
    | other k => exact .other k h
  · intro h
    cases h with
    | other k h => exact h
    | none_ => rfl
    | false_ => rfl
    | zero => rfl
    | fzero => simp [toBool]
    | empty => rfl

/-- What a successful resolution stores for a field of scalar type for which a text is written. -/
theorem field_value (env : Env) (base : Ext Val κ μ) {out : Dict Str OutVal} (wf : out.WF) {lvars : Dict Str LvarMeta} {lacts : Dict Str LactMeta} {specs : List Spec}
    {o : Output Val κ μ} (h : resolve (ext env base) out lvars lacts specs = .ok o) {f t : Str} {k : Nat} (hs : HasType specs f k) (hw : Written out lvars lacts f t) :
    ∃ v w, parseValue env t = .ok v ∧ convert env k v = .ok w ∧ o.fields.get? f = some (.scalar w) := by
  have hall := (Resolver.C50_sound (ext env base) out wf lvars lacts specs o h).2.2.2.2.2
  cases hw with
  | var n l h1 h2 h3 =>
    obtain ⟨s, hsm, hsn, x, hx, hm⟩ := hall f _ h1
    have hty := hs s hsm hsn
    cases hm with
    | literal t' v u w a1 a2 => exact absurd rfl (a2 _)
    | var t' n' l' u w a1 a2 a3 a4 a5 =>
      rw [hty] at a1; cases a1
      rw [h3] at a3; cases a3
      exact ⟨u, w, a4, a5, hx⟩
    | scalarAction t' n' a a1 a2 => obtain ⟨m, hm, _⟩ := a2; rw [h2] at hm; cases hm
    | directAction c n' m a a1 => rw [hty] at a1; cases a1
    | instance_ c ns as kw i j a1 => rw [hty] at a1; cases a1
  | literal _ h1 =>
    obtain ⟨s, hsm, hsn, x, hx, hm⟩ := hall f _ h1
    have hty := hs s hsm hsn
    cases hm with
    | literal t' v u w a1 a2 a3 a4 =>
      rw [hty] at a1; cases a1
      exact ⟨u, w, a3, a4, hx⟩

theorem field_reads (env : Env) (base : Ext Val κ μ) {out : Dict Str OutVal} (wf : out.WF) {lvars : Dict Str LvarMeta} {lacts : Dict Str LactMeta} {specs : List Spec}
    {o : Output Val κ μ} (h : resolve (ext env base) out lvars lacts specs = .ok o) {f t s : Str} {k : Nat} (hs : HasType specs f k) (hw : Written out lvars lacts f t)
    (hst : Stripped t s) : ∃ v w, Reads env s v ∧ convert env k v = .ok w ∧ o.fields.get? f = some (.scalar w) := by
  obtain ⟨v, w, h1, h2, h3⟩ := field_value env base wf h hs hw
  obtain ⟨s', h4, h5⟩ := (parseValue_iff env t v).1 h1
  have : s' = s := (stripped_eq h4).symm.trans (stripped_eq hst)
  subst this
  exact ⟨v, w, h5, h2, h3⟩

/-! ### C247: text fields -/

/-- C247, exactly: a field of type `str` for which the text `t` is written holds `t` without the surrounding white space if and only if the text is `True` or `False`, or
none of the words `true`, `false`, `null` (in any capitalisation) and either no Python literal or one that Python writes in the same way. -/
theorem C247_exact_partial (env : Env) (base : Ext Val κ μ) (out : Dict Str OutVal) (wf : out.WF) (lvars : Dict Str LvarMeta) (lacts : Dict Str LactMeta) (specs : List Spec)
    (o : Output Val κ μ) (h : resolve (ext env base) out lvars lacts specs = .ok o) (f t s : Str) (hs : HasType specs f 1) (hw : Written out lvars lacts f t)
    (hst : Stripped t s) :
    o.fields.get? f = some (.scalar (.str s)) ↔
      s = "True".toList ∨ s = "False".toList ∨ Plain s ∧ (env.literal s = .refused ∨ ∃ v, env.literal s = .val v ∧ Shown env v s) := by
  obtain ⟨v, w, h1, h2, h3⟩ := field_reads env base wf h hs hw hst
  have hc : w = .str (toStr env v) := by cases h2; rfl
  have key : o.fields.get? f = some (.scalar (.str s)) ↔ Shown env v s := by
    rw [h3, hc, ← toStr_iff]
    constructor
    · intro e; cases e; rfl
    · intro e; rw [e]
  rw [key]
  constructor
  · intro hv
    cases h1 with
    | yes hw => cases hv; exact Or.inl rfl
    | no hw => cases hv; exact Or.inr (Or.inl rfl)
    | nothing hw =>
      exfalso
      cases hv
      exact absurd hw (by unfold Word; decide)
    | literal v hp hl => exact Or.inr (Or.inr ⟨hp, Or.inr ⟨v, hl, hv⟩⟩)
    | text hp hl => exact Or.inr (Or.inr ⟨hp, Or.inl hl⟩)
  · rintro (rfl | rfl | ⟨hp, hl | ⟨u, hl, hu⟩⟩)
    · rw [reads_unique h1 (.yes (by unfold Word; decide))]; exact .true_
    · rw [reads_unique h1 (.no (by unfold Word; decide))]; exact .false_
    · rw [reads_unique h1 (.text hp hl)]; exact .str s
    · rw [reads_unique h1 (.literal u hp hl)]; exact hu

/-- C247, what arrives in every case: the text Python gives for what the text stands for. -/
theorem C247_value_partial (env : Env) (base : Ext Val κ μ) (out : Dict Str OutVal) (wf : out.WF) (lvars : Dict Str LvarMeta) (lacts : Dict Str LactMeta) (specs : List Spec)
    (o : Output Val κ μ) (h : resolve (ext env base) out lvars lacts specs = .ok o) (f t s : Str) (hs : HasType specs f 1) (hw : Written out lvars lacts f t)
    (hst : Stripped t s) : ∃ v r, Reads env s v ∧ Shown env v r ∧ o.fields.get? f = some (.scalar (.str r)) := by
  obtain ⟨v, w, h1, h2, h3⟩ := field_reads env base wf h hs hw hst
  have hc : w = .str (toStr env v) := by cases h2; rfl
  exact ⟨v, toStr env v, h1, (toStr_iff env v _).1 rfl, by rw [h3, hc]⟩

/-- The environment of the examples: a few literals. -/
def demoEnv : Env where
  literal s :=
    if s = "1.50".toList then .val (.float (.fin (3 / 2)))
    else if s = "2.5".toList then .val (.float (.fin (5 / 2)))
    else if s = "7".toList then .val (.int 7)
    else .refused
  num s := if s = "2.5".toList then .float (.fin (5 / 2)) else .int 7
  showFloat _ := "1.5".toList
  showOther _ := []
  floatText _ := none
  intText _ := none
  floatOther _ := none
  intOther _ := none
  truthy _ := true

/-- The environment of the examples: no calls, no models. -/
def demoBase : Ext Val Unit Unit where
  parseCall _ := none
  parseValue _ := .error .other
  lit _ := .error .other
  convert _ _ := .error .other
  construct _ _ := .ok ()
  constructRaw _ _ := ()
  validators _ m := .ok m

/-- A document with the variable `v` of this content, referenced by the only field `f`, which has the scalar type `k`. -/
def demo (env : Env) (k : Nat) (t : String) : Except Resolver.RErr (Output Val Unit Unit) :=
  resolve (ext env demoBase) [("f".toList, .refs ["v".toList])] [("v".toList, ⟨none, t.toList⟩)] [] [⟨some "f".toList, .scalar k, true, 0⟩]

/-- The output with this value of the field `f`. -/
def demoOut (v : Val) : Except Resolver.RErr (Output Val Unit Unit) := .ok ⟨[("f".toList, .scalar v)], []⟩

/-- C247 is false: the text `true` arrives as `True`, `null` as `None` and `1.50` as `1.5`. -/
theorem C247_rewritten_violation : demo demoEnv 1 "true" = demoOut (.str "True".toList) ∧ demo demoEnv 1 "null" = demoOut (.str "None".toList) ∧
    demo demoEnv 1 "1.50" = demoOut (.str "1.5".toList) := by decide +kernel

example : demo demoEnv 1 " hello\n" = demoOut (.str "hello".toList) := by decide +kernel

/-! ### C248: boolean fields -/

/-- C248, exactly: a field of type `bool` for which a text is written is `False` if and only if what the text stands for counts as false in Python:
the words `false` and `null`, a literal for zero or for something empty, and white space. -/
theorem C248_exact_partial (env : Env) (base : Ext Val κ μ) (out : Dict Str OutVal) (wf : out.WF) (lvars : Dict Str LvarMeta) (lacts : Dict Str LactMeta) (specs : List Spec)
    (o : Output Val κ μ) (h : resolve (ext env base) out lvars lacts specs = .ok o) (f t s : Str) (hs : HasType specs f 3) (hw : Written out lvars lacts f t)
    (hst : Stripped t s) :
    ∃ b, o.fields.get? f = some (.scalar (.bool b)) ∧
      (b = false ↔ Word "false" s ∨ Word "null" s ∨ Plain s ∧ ((∃ v, env.literal s = .val v ∧ Falsy env v) ∨ env.literal s = .refused ∧ s = [])) := by
  obtain ⟨v, w, h1, h2, h3⟩ := field_reads env base wf h hs hw hst
  have hc : w = .bool (toBool env v) := by cases h2; rfl
  refine ⟨toBool env v, by rw [h3, hc], ?_⟩
  rw [toBool_iff]
  constructor
  · intro hv
    cases h1 with
    | yes hw => cases hv
    | no hw => exact Or.inl hw
    | nothing hw => exact Or.inr (Or.inl hw)
    | literal v hp hl => exact Or.inr (Or.inr ⟨hp, Or.inl ⟨v, hl, hv⟩⟩)
    | text hp hl => cases hv; exact Or.inr (Or.inr ⟨hp, Or.inr ⟨hl, rfl⟩⟩)
  · rintro (hw | hw | ⟨hp, ⟨u, hl, hu⟩ | ⟨hl, rfl⟩⟩)
    · rw [reads_unique h1 (.no hw)]; exact .false_
    · rw [reads_unique h1 (.nothing hw)]; exact .none_
    · rw [reads_unique h1 (.literal u hp hl)]; exact hu
    · rw [reads_unique h1 (.text hp hl)]; exact .empty

/-- C248, what holds: `true` and `false`, in any capitalisation, are read as such. -/
theorem C248_words_partial (env : Env) (base : Ext Val κ μ) (out : Dict Str OutVal) (wf : out.WF) (lvars : Dict Str LvarMeta) (lacts : Dict Str LactMeta) (specs : List Spec)
    (o : Output Val κ μ) (h : resolve (ext env base) out lvars lacts specs = .ok o) (f t s : Str) (hs : HasType specs f 3) (hw : Written out lvars lacts f t)
    (hst : Stripped t s) :
    (Word "true" s → o.fields.get? f = some (.scalar (.bool true))) ∧ (Word "false" s → o.fields.get? f = some (.scalar (.bool false))) := by
  obtain ⟨v, w, h1, h2, h3⟩ := field_reads env base wf h hs hw hst
  have hc : w = .bool (toBool env v) := by cases h2; rfl
  rw [h3, hc]
  constructor
  · intro hw
    rw [reads_unique h1 (.yes hw)]; rfl
  · intro hw
    rw [reads_unique h1 (.no hw)]; rfl

/-- C248 is false: `no`, `off` and `0.0 percent` make a boolean field `True`. -/
theorem C248_no_violation : demo demoEnv 3 "no" = demoOut (.bool true) ∧ demo demoEnv 3 "off" = demoOut (.bool true) ∧
    demo demoEnv 3 "0.0 percent" = demoOut (.bool true) := by decide +kernel

example : demo demoEnv 3 "FALSE " = demoOut (.bool false) := by decide +kernel

/-! ### C249: integer fields -/

theorem trunc_int (n : Int) : ToNum.trunc (n : Rat) = n := by
  unfold ToNum.trunc
  split
  · exact Rat.floor_intCast n
  · exact Rat.ceil_intCast n

/-- C249, exactly: when a field of type `int` for which a text is written holds `n`, the text denotes the number `n` if and only if it does not stand for a truth value,
a compound value or a number with a fractional part. -/
theorem C249_exact_partial (env : Env) (base : Ext Val κ μ) (out : Dict Str OutVal) (wf : out.WF) (lvars : Dict Str LvarMeta) (lacts : Dict Str LactMeta) (specs : List Spec)
    (o : Output Val κ μ) (h : resolve (ext env base) out lvars lacts specs = .ok o) (f t s : Str) (hs : HasType specs f 2) (hw : Written out lvars lacts f t)
    (hst : Stripped t s) :
    ∃ v n, Reads env s v ∧ o.fields.get? f = some (.scalar (.int n)) ∧
      (Denotes env v n ↔ (∀ b, v ≠ .bool b) ∧ (∀ k, v ≠ .other k) ∧ ∀ q, v = .float (.fin q) → ∃ m : Int, q = m) := by
  obtain ⟨v, w, h1, h2, h3⟩ := field_reads env base wf h hs hw hst
  have h2' : (toInt env v).map Val.int = .ok w := h2
  cases hi : toInt env v with
  | error e => rw [hi] at h2'; cases h2'
  | ok n =>
    rw [hi] at h2'
    cases h2'
    refine ⟨v, n, h1, h3, ?_⟩
    constructor
    · intro hd
      cases hd with
      | int n => exact ⟨nofun, nofun, nofun⟩
      | float q => exact ⟨nofun, nofun, (by intro q e; cases e; exact ⟨n, rfl⟩)⟩
      | text s n => exact ⟨nofun, nofun, nofun⟩
    · rintro ⟨a1, a2, a3⟩
      cases v with
      | none_ => cases hi
      | bool b => exact absurd rfl (a1 b)
      | int m => cases hi; exact .int n
      | float x =>
        cases x with
        | fin q =>
          obtain ⟨m, rfl⟩ := a3 q rfl
          simp only [toInt, intOfFloat, trunc_int] at hi
          cases hi
          exact .float _
        | nan => cases hi
        | posInf => cases hi
        | negInf => cases hi
      | str s =>
        simp only [toInt] at hi
        cases ht : env.intText s with
        | none => rw [ht] at hi; cases hi
        | some m => rw [ht] at hi; cases hi; exact .text s n ht
      | other k => exact absurd rfl (a2 k)

/-- C249, what holds: an integer literal arrives as it is. -/
theorem C249_integer_partial (env : Env) (base : Ext Val κ μ) (out : Dict Str OutVal) (wf : out.WF) (lvars : Dict Str LvarMeta) (lacts : Dict Str LactMeta) (specs : List Spec)
    (o : Output Val κ μ) (h : resolve (ext env base) out lvars lacts specs = .ok o) (f t s : Str) (hs : HasType specs f 2) (hw : Written out lvars lacts f t)
    (hst : Stripped t s) (n : Int) (hn : Reads env s (.int n)) : o.fields.get? f = some (.scalar (.int n)) := by
  obtain ⟨v, w, h1, h2, h3⟩ := field_reads env base wf h hs hw hst
  have e := reads_unique h1 hn
  subst e
  cases h2
  exact h3

/-- `n` is `q` without its fractional part. -/
def WholePart (q : Rat) (n : Int) : Prop := (0 ≤ q → (n : Rat) ≤ q ∧ q < ((n + 1 : Int) : Rat)) ∧ (q < 0 → q ≤ n ∧ (n : Rat) < q + 1)

/-- C249, what happens instead: a number with a fractional part arrives without it (rounded towards zero, not down). -/
theorem C249_fraction_partial (env : Env) (base : Ext Val κ μ) (out : Dict Str OutVal) (wf : out.WF) (lvars : Dict Str LvarMeta) (lacts : Dict Str LactMeta) (specs : List Spec)
    (o : Output Val κ μ) (h : resolve (ext env base) out lvars lacts specs = .ok o) (f t s : Str) (hs : HasType specs f 2) (hw : Written out lvars lacts f t)
    (hst : Stripped t s) (q : Rat) (hq : Reads env s (.float (.fin q))) : ∃ n, WholePart q n ∧ o.fields.get? f = some (.scalar (.int n)) := by
  obtain ⟨v, w, h1, h2, h3⟩ := field_reads env base wf h hs hw hst
  have e := reads_unique h1 hq
  subst e
  cases h2
  refine ⟨ToNum.trunc q, ?_, h3⟩
  unfold WholePart ToNum.trunc
  constructor
  · intro h0
    rw [if_pos h0]
    exact ⟨Rat.floor_le q, Rat.lt_floor_add_one q⟩
  · intro h0
    rw [if_neg (Rat.not_le.mpr h0)]
    exact ⟨Rat.le_ceil, Rat.ceil_lt⟩

/-- The value of a number token is that of the token, not that of a text. -/
example : resolve (ext demoEnv demoBase) [("f".toList, .num "3".toList)] [] [] [⟨some "f".toList, .scalar 2, true, 0⟩] = demoOut (.int 7) := by decide +kernel

/-- C249 is false: `2.5` arrives as 2, written in a variable or directly, and `true` as 1. -/
theorem C249_fraction_violation : demo demoEnv 2 "2.5" = demoOut (.int 2) ∧ demo demoEnv 2 "true" = demoOut (.int 1) ∧
    resolve (ext demoEnv demoBase) [("f".toList, .num "2.5".toList)] [] [] [⟨some "f".toList, .scalar 2, true, 0⟩] = demoOut (.int 2) := by decide +kernel

example : demo demoEnv 2 "7" = demoOut (.int 7) := by decide +kernel

example : demo demoEnv 2 "seven" = .error (.group [.value]) := by decide +kernel

/-- The hypotheses of the theorems above are met by such documents. -/
example : Written [("f".toList, .refs ["v".toList])] [("v".toList, ⟨none, " 7".toList⟩)] [] "f".toList " 7".toList ∧ Stripped " 7".toList "7".toList ∧
    Reads demoEnv "7".toList (.int 7) ∧ HasType [⟨some "f".toList, .scalar 2, true, 0⟩] "f".toList 2 := by
  refine ⟨.var "v".toList ⟨none, " 7".toList⟩ (by decide) (by decide) (by decide), ?_, .literal _ (by unfold Plain Word; decide) (by decide), ?_⟩
  · have := strip_stripped " 7".toList
    have e : strip " 7".toList = "7".toList := by decide
    rw [e] at this; exact this
  · intro s hs _
    rw [List.mem_singleton] at hs
    rw [hs]

/-! ### C250: `parse_value` -/

/-- C250, exactly: `parse_value` returns a value for a text if and only if the text without the surrounding white space is one of the three words or `ast.literal_eval` of it does not end with an
exception other than `ValueError` and `SyntaxError`; the value is then what the text stands for. -/
theorem C250_exact_partial (env : Env) (t s : Str) (hst : Stripped t s) :
    ((∃ v, parseValue env t = .ok v) ↔ ¬ (Plain s ∧ env.literal s = .raised)) ∧ ∀ v, parseValue env t = .ok v ↔ Reads env s v := by
  have hs : strip t = s := stripped_eq hst
  have hread : ∀ v, parseValue env t = .ok v ↔ Reads env s v := by
    intro v
    unfold parseValue
    rw [hs]
    exact parseStripped_iff env s v
  refine ⟨?_, hread⟩
  constructor
  · rintro ⟨v, hv⟩ ⟨⟨n1, n2, n3⟩, hr⟩
    cases (hread v).1 hv with
    | yes h => exact n1 h
    | no h => exact n2 h
    | nothing h => exact n3 h
    | literal _ _ h => rw [hr] at h; cases h
    | text _ h => rw [hr] at h; cases h
  · intro hn
    by_cases h1 : Word "true" s
    · exact ⟨_, (hread _).2 (.yes h1)⟩
    · by_cases h2 : Word "false" s
      · exact ⟨_, (hread _).2 (.no h2)⟩
      · by_cases h3 : Word "null" s
        · exact ⟨_, (hread _).2 (.nothing h3)⟩
        · cases hl : env.literal s with
          | val v => exact ⟨_, (hread _).2 (.literal v ⟨h1, h2, h3⟩ hl)⟩
          | refused => exact ⟨_, (hread _).2 (.text ⟨h1, h2, h3⟩ hl)⟩
          | raised => exact absurd ⟨⟨h1, h2, h3⟩, hl⟩ hn

/-- C250 is false: `parse_value` raises for a text such as `{[]}`, a set display with an unhashable element. -/
theorem C250_raises_violation (env : Env) (h : env.literal "{[]}".toList = .raised) : parseValue env "{[]}".toList = .error .other := by
  have hs : strip "{[]}".toList = "{[]}".toList := by decide
  unfold parseValue
  rw [hs]
  unfold parseStripped
  rw [if_neg (by decide), if_neg (by decide), if_neg (by decide), h]
  rfl

example : parseValue demoEnv " 7 ".toList = .ok (.int 7) ∧ parseValue demoEnv "{invalid: json}".toList = .ok (.str "{invalid: json}".toList) ∧
    parseValue { demoEnv with literal := fun s => if s = "{[]}".toList then .raised else .refused } "{[]}".toList = .error .other := by decide +kernel

end Verif.LndlValue
