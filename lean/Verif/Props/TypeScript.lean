import Verif.Model.TypeScript

/-!
# C84, C137: TypeScript rendering of schemas
-/

set_option linter.unusedSectionVars false
set_option linter.unusedSimpArgs false
set_option linter.unusedVariables false

namespace Verif.TypeScript

/-! ### Specification: which properties admit `null` (JSON Schema validation of `null`) -/

/-- `null` has this type. -/
def tyNull : Ty → Bool
  | .one n => n = "null"
  | .opt _ => true
  | .many l => l.contains "null"

/-- `null` satisfies the keywords that are present; an absent keyword is no restriction. `refNull` says which referenced definitions admit `null`. -/
def optNull (refNull : Ref → Bool) (o : Opt) : Bool :=
  o.type.all tyNull && o.ref.all refNull && o.enum.all (·.contains .null)

/-- `null` is a valid value of the property. -/
def admitsNull (refNull : Ref → Bool) (s : Spec) : Bool :=
  s.type.all tyNull && s.ref.all refNull && s.enum.all (·.contains .null) && s.anyOf.all (·.any (optNull refNull))

/-! ### The domain of the partial theorem -/

/-- Exactly one of `enum`, `anyOf`, `$ref`, `type` describes the property; types are single names; a plain `type` is not `null`; a member of `anyOf` is the type `null` or does not admit `null`; referenced definitions do not admit `null`. -/
inductive Usual : Spec → Prop
  | enum (l d t i) : Usual { enum := some l, default := d, description := t, items := i }
  | anyOf (os d t i) (h : ∀ o ∈ os, o = { type := some (.one "null") } ∨ ∃ n, n ≠ "null" ∧ (o = { type := some (.one n) } ∨ (∃ it, it ≠ "" ∧ o = { type := some (.one n), items := some { type := some (.one it) } }) ∨ ∃ r, o = { ref := some r })) :
      Usual { anyOf := some os, default := d, description := t, items := i }
  | ref (r d t) : Usual { ref := some r, default := d, description := t }
  | type (n d t) (h : n ≠ "null") : Usual { type := some (.one n), default := d, description := t }
  | simplified (n d t) : Usual { type := some (.opt n), default := d, description := t }
  | array (d t) (n : String) : Usual { type := some (.one "array"), items := some { type := some (.one n) }, default := d, description := t }

theorem optParts_ok {os : List Opt} (h : ∀ o ∈ os, isNullOpt o = true ∨ ∃ t, optText o = .ok t) : ∃ ps, optParts os = .ok ps := by
  induction os with
  | nil => exact ⟨[], rfl⟩
  | cons o os ih =>
    obtain ⟨ps, hps⟩ := ih (fun o ho => h o (List.mem_cons_of_mem _ ho))
    simp only [optParts]
    split
    · exact ⟨ps, hps⟩
    · next hn =>
      rcases h o List.mem_cons_self with h' | ⟨t, h'⟩
      · exact absurd h' hn
      · rw [h', hps]; exact ⟨_, rfl⟩

theorem signature_usual (refNull : Ref → Bool) (hr : ∀ r, refNull r = false) (s : Spec) (required : Bool) (h : Usual s) :
    ∃ sig, signature s required = .ok (sig, !required || admitsNull refNull s) := by
  cases h with
  | enum l d t i => exact ⟨_, by simp [signature, admitsNull]; rfl⟩
  | anyOf os d t i h =>
    have h1 : ∀ o ∈ os, isNullOpt o = true ∨ ∃ t, optText o = .ok t := by
      intro o ho
      rcases h o ho with h' | ⟨n, hn, h' | ⟨it, hit, h'⟩ | ⟨r, h'⟩⟩
      · left; rw [h']; rfl
      · right; rw [h']; exact ⟨_, rfl⟩
      · right; rw [h']
        simp only [optText, optTyped]
        split <;> exact ⟨_, rfl⟩
      · right; rw [h']; exact ⟨_, rfl⟩
    have h2 : os.any isNullOpt = os.any (optNull refNull) := by
      apply Bool.eq_iff_iff.2
      rw [List.any_eq_true, List.any_eq_true]
      have key : ∀ o ∈ os, isNullOpt o = optNull refNull o := by
        intro o ho
        rcases h o ho with h' | ⟨n, hn, h' | ⟨it, hit, h'⟩ | ⟨r, h'⟩⟩
        · rw [h']; rfl
        · rw [h']; simp [isNullOpt, optNull, tyNull]
        · rw [h']; simp [isNullOpt, optNull, tyNull]
        · rw [h']; simp [isNullOpt, optNull, hr]
      exact ⟨fun ⟨o, ho, hh⟩ => ⟨o, ho, by rw [← key o ho]; exact hh⟩, fun ⟨o, ho, hh⟩ => ⟨o, ho, by rw [key o ho]; exact hh⟩⟩
    obtain ⟨ps, hps⟩ := optParts_ok h1
    refine ⟨unionText ps (os.any isNullOpt), ?_⟩
    simp only [signature, hps, Except.map]
    rw [h2]
    simp [admitsNull]
  | ref r d t => exact ⟨_, by simp [signature, plainSignature, admitsNull, hr]; rfl⟩
  | type n d t h =>
    by_cases e : n = "array"
    · subst e; exact ⟨_, by simp [signature, plainSignature, isArray, arrayItemType, Except.map, admitsNull, tyNull]; rfl⟩
    · exact ⟨_, by simp [signature, plainSignature, isArray, simpleType, typeMap, e, Except.map, admitsNull, tyNull, h]; rfl⟩
  | simplified n d t => exact ⟨_, by simp [signature, plainSignature, isArray, simpleType, admitsNull, tyNull]; rfl⟩
  | array d t n => exact ⟨_, by simp [signature, plainSignature, isArray, arrayItemType, typeMap, Except.map, admitsNull, tyNull]; rfl⟩

/-- The text expected for a member of a union: the type name, the item type followed by `[]`, or the last part of a reference. -/
inductive Shows : Opt → String → Prop
  | type (n) (h : n ≠ "null") : Shows { type := some (.one n) } (typeName n)
  | array (it) : Shows { type := some (.one "array"), items := some { type := some (.one it) } } (typeName it ++ "[]")
  | ref (path : Ref) (last : String) : Shows { ref := some (path ++ [last]) } last
  | enum (l) : Shows { enum := some l } (enumUnion l)

/-- **C84** (unions). A union is rendered as the texts of its members in order, joined by ` | `, the member `null` moved to the end. -/
theorem C84_union (opts : List Opt) (texts : List String) (required : Bool) (d : Option Val) (t : Option String) (hne : opts ≠ [])
    (h : ∀ o ∈ opts, o = { type := some (.one "null") } ∨ ∃ x, Shows o x)
    (ht : (∀ (i : Nat) x, (opts.filter (fun o => o ≠ { type := some (.one "null") }))[i]? = some x → ∃ y, texts[i]? = some y ∧ Shows x y))
    (hl : texts.length = (opts.filter (fun o => o ≠ { type := some (.one "null") })).length) :
    signature { anyOf := some opts, default := d, description := t } required =
      .ok (" | ".intercalate (texts ++ if { type := some (.one "null") } ∈ opts then ["null"] else []), !required || decide ({ type := some (.one "null") } ∈ opts)) := by
  have hnull : ∀ o ∈ opts, (isNullOpt o = true ↔ o = { type := some (.one "null") }) := by
    intro o ho
    rcases h o ho with e | ⟨x, hx⟩
    · rw [e]; exact ⟨fun _ => rfl, fun _ => rfl⟩
    · cases hx <;> simp_all [isNullOpt]
  have hshow : ∀ o x, Shows o x → isNullOpt o = false ∧ optText o = .ok (some x) := by
    intro o x hx
    cases hx with
    | type n hn => exact ⟨by simp [isNullOpt, hn], rfl⟩
    | array it => exact ⟨rfl, rfl⟩
    | ref path last => exact ⟨rfl, by simp [optText, refName]⟩
    | enum l => exact ⟨rfl, rfl⟩
  have key : ∀ (opts : List Opt) (texts : List String), (∀ o ∈ opts, o = { type := some (.one "null") } ∨ ∃ x, Shows o x) →
      (∀ (i : Nat) x, (opts.filter (fun o => o ≠ { type := some (.one "null") }))[i]? = some x → ∃ y, texts[i]? = some y ∧ Shows x y) →
      texts.length = (opts.filter (fun o => o ≠ { type := some (.one "null") })).length → optParts opts = .ok texts := by
    intro opts
    induction opts with
    | nil => intro texts _ _ hl; simp at hl; rw [hl]; rfl
    | cons o opts ih =>
      intro texts h ht hl
      rcases h o List.mem_cons_self with e | ⟨x, hx⟩
      · subst e
        simp only [optParts]
        rw [if_pos (by rfl)]
        exact ih texts (fun o ho => h o (List.mem_cons_of_mem _ ho)) (by simpa using ht) (by simpa using hl)
      · obtain ⟨h1, h2⟩ := hshow o x hx
        have hne : o ≠ { type := some (.one "null") } := fun e => by rw [e] at h1; cases h1
        rw [List.filter_cons_of_pos (by simpa using hne)] at ht hl
        cases texts with
        | nil => simp at hl
        | cons y ys =>
          obtain ⟨y', hy1, hy2⟩ := ht 0 o rfl
          have : y' = y := by simpa using hy1.symm
          subst this
          obtain ⟨_, h3⟩ := hshow o y' hy2
          have hys := ih ys (fun o ho => h o (List.mem_cons_of_mem _ ho)) (fun i x hi => by simpa using ht (i + 1) x (by simpa using hi)) (by simpa using hl)
          simp only [optParts, h1, h3, hys]
          rfl
  have hany : opts.any isNullOpt = decide ({ type := some (.one "null") } ∈ opts) := by
    apply Bool.eq_iff_iff.2
    rw [List.any_eq_true, decide_eq_true_iff]
    exact ⟨fun ⟨o, ho, hn⟩ => (hnull o ho).1 hn ▸ ho, fun hm => ⟨_, hm, rfl⟩⟩
  simp only [signature, key opts texts h ht hl, Except.map, hany, unionText]
  have hnonempty : (texts ++ (if { type := some (.one "null") } ∈ opts then ["null"] else [])) ≠ [] := by
    intro hc
    rw [List.append_eq_nil_iff] at hc
    obtain ⟨a, b⟩ := hc
    rw [a] at hl
    obtain ⟨o, ho⟩ := List.exists_mem_of_ne_nil _ hne
    by_cases e : o = { type := some (.one "null") }
    · subst e; rw [if_pos ho] at b; cases b
    · have : o ∈ opts.filter (fun o => o ≠ { type := some (.one "null") }) := List.mem_filter.2 ⟨ho, by simpa using e⟩
      rw [List.length_eq_zero_iff.1 hl.symm] at this
      cases this
  simp only [decide_eq_true_eq]
  rw [if_neg]
  simpa using hnonempty

/-- What one line must look like: indentation, name, the marker iff the property is not required or admits `null`, a colon, some type text, then default and description. -/
def LineOf (refNull : Ref → Bool) (indent : Nat) (required : List String) (p : String × Spec) (l : String) : Prop :=
  ∃ sig, l = indentText indent ++ p.1 ++ (if p.1 ∉ required ∨ admitsNull refNull p.2 = true then "?" else "") ++ ": " ++ sig ++ defaultText p.2.default ++ descText p.2.description

/-- **C84** (partial). If every property has one of the usual shapes and referenced definitions do not admit `null`, rendering succeeds with exactly one line per property, in the order of the schema, and the line has the marker `?` exactly when the property is not required or admits `null`. For other shapes see `C84_exact_partial` and the violations. -/
theorem C84_lines_partial (refNull : Ref → Bool) (hr : ∀ r, refNull r = false) (sch : Schema) (ps : Dict String Spec) (hp : sch.properties = some ps) (indent : Nat)
    (hu : ∀ p ∈ ps, Usual p.2) :
    ∃ ls, typescriptSchema sch indent = .ok ("\n".intercalate ls) ∧ ls.length = ps.length ∧
      ∀ (i : Nat) p l, ps[i]? = some p → ls[i]? = some l → LineOf refNull indent sch.required p l := by
  have key : ∀ ps : Dict String Spec, (∀ p ∈ ps, Usual p.2) → ∃ ls, linesOf indent sch.required ps = .ok ls ∧ ls.length = ps.length ∧
      ∀ (i : Nat) p l, ps[i]? = some p → ls[i]? = some l → LineOf refNull indent sch.required p l := by
    intro ps
    induction ps with
    | nil => intro _; exact ⟨[], rfl, rfl, by intro i p l h; simp at h⟩
    | cons q ps ih =>
      intro hu
      obtain ⟨ls, h1, h2, h3⟩ := ih (fun p hp => hu p (List.mem_cons_of_mem _ hp))
      obtain ⟨n, s⟩ := q
      obtain ⟨sig, hs⟩ := signature_usual refNull hr s (sch.required.contains n) (hu (n, s) List.mem_cons_self)
      simp only [linesOf, line, hs, h1]
      refine ⟨_, rfl, by simp [h2], ?_⟩
      intro i p l hp hl
      cases i with
      | succ i => exact h3 i p l (by simpa using hp) (by simpa using hl)
      | zero =>
        simp at hp hl
        subst hp; subst hl
        refine ⟨sig, ?_⟩
        have e : (!(sch.required.contains n) || admitsNull refNull s) = true ↔ (n ∉ sch.required ∨ admitsNull refNull s = true) := by simp
        simp only [e]
  obtain ⟨ls, h1, h2, h3⟩ := key ps hu
  refine ⟨ls, ?_, h2, h3⟩
  unfold typescriptSchema
  rw [hp]
  simp only [h1, Except.map]

/-- Properties that are not required are marked whatever their shape. -/
theorem C84_not_required (s : Spec) (sig : String) (b : Bool) (h : signature s false = .ok (sig, b)) : b = true := by
  unfold signature at h
  split at h
  · cases h; rfl
  · split at h
    · rename_i opts _
      cases hp : optParts opts <;> rw [hp] at h <;> simp only [Except.map] at h <;> cases h <;> rfl
    · unfold plainSignature at h
      split at h
      · next t ht =>
        split at h
        · cases ha : arrayItemType s.items <;> rw [ha] at h <;> simp only [Except.map] at h <;> cases h <;> rfl
        · split at h
          · cases h; rfl
          · unfold simpleType at h
            split at h
            · cases h; rfl
            · cases ht : typeMap t <;> rw [ht] at h <;> simp only [Except.map] at h <;> cases h <;> rfl
      · split at h <;> cases h <;> rfl

/-- Which properties the code marks although they are required: those with an `enum` that lists `null`; without `enum`, those with an `anyOf` of which a member is the type `null`;
without either and without `$ref`, those whose type is a name with the short form of "or null". -/
def Marked (s : Spec) : Prop :=
  (∃ l, s.enum = some l ∧ l.contains .null = true) ∨
  (s.enum = none ∧ ∃ os, s.anyOf = some os ∧ ∃ o ∈ os, o.type = some (.one "null")) ∨
  (s.enum = none ∧ s.anyOf = none ∧ s.ref = none ∧ ∃ n, s.type = some (.opt n))

theorem signature_marked {s : Spec} {required : Bool} {sig : String} {b : Bool} (h : signature s required = .ok (sig, b)) : b = true ↔ required = false ∨ Marked s := by
  have none' : ∀ {e : Except Exc String} {g : String → String}, e.map (fun x => (g x, !required)) = .ok (sig, b) → ¬ Marked s → (b = true ↔ required = false ∨ Marked s) := by
    intro e g he hm
    cases e with
    | error e => cases he
    | ok x => cases he; simp [hm]
  unfold signature at h
  cases he : s.enum with
  | some l =>
    rw [he] at h
    cases h
    simp only [Bool.or_eq_true, Bool.not_eq_true']
    refine or_congr Iff.rfl ⟨fun m => .inl ⟨l, he, m⟩, ?_⟩
    rintro (⟨l', e, m⟩ | ⟨e, _⟩ | ⟨e, _⟩)
    · rw [he] at e; cases e; exact m
    · rw [he] at e; cases e
    · rw [he] at e; cases e
  | none =>
    rw [he] at h
    cases ha : s.anyOf with
    | some os =>
      rw [ha] at h
      dsimp only at h
      cases hp : optParts os with
      | error e => rw [hp] at h; cases h
      | ok ps =>
        rw [hp] at h
        cases h
        simp only [Bool.or_eq_true, Bool.not_eq_true']
        refine or_congr Iff.rfl ⟨fun m => ?_, ?_⟩
        · obtain ⟨o, ho, hn⟩ := List.any_eq_true.mp m
          exact .inr (.inl ⟨he, os, ha, o, ho, by simpa [isNullOpt] using hn⟩)
        · rintro (⟨l', e, m⟩ | ⟨_, os', e, o, ho, hn⟩ | ⟨_, e, _⟩)
          · rw [he] at e; cases e
          · rw [ha] at e; cases e
            exact List.any_eq_true.mpr ⟨o, ho, by simpa [isNullOpt] using hn⟩
          · rw [ha] at e; cases e
    | none =>
      rw [ha] at h
      dsimp only at h
      have nm : (∀ n, s.type = some (.opt n) → s.ref ≠ none) → ¬ Marked s := by
        intro hh
        rintro (⟨l', e, m⟩ | ⟨_, os', e, _⟩ | ⟨_, _, e, n, hn⟩)
        · rw [he] at e; cases e
        · rw [ha] at e; cases e
        · exact hh n hn e
      have plain : ∀ x : String, Except.ok (ε := Exc) (x, !required) = .ok (sig, b) → ¬ Marked s → (b = true ↔ required = false ∨ Marked s) := by
        intro x hx hm; cases hx; simp [hm]
      unfold plainSignature at h
      cases ht : s.type with
      | none =>
        rw [ht] at h
        have n' := nm (fun n e => by rw [ht] at e; cases e)
        cases hr : s.ref with
        | some r => rw [hr] at h; exact plain _ h n'
        | none => rw [hr] at h; exact plain _ h n'
      | some t =>
        rw [ht] at h
        dsimp only at h
        by_cases hx : isArray t = true
        · rw [if_pos hx] at h
          refine none' h (nm (fun n e => ?_))
          rw [ht] at e; cases e
          simp [isArray] at hx
        · rw [if_neg hx] at h
          cases hr : s.ref with
          | some r => rw [hr] at h; exact plain _ h (nm (fun n e => by simp [hr]))
          | none =>
            rw [hr] at h
            dsimp only at h
            cases t with
            | opt n => cases h; simp only [true_iff]; exact .inr (.inr (.inr ⟨he, ha, hr, n, ht⟩))
            | one n => exact none' (e := typeMap (.one n)) (g := fun x => x) h (nm (fun m e => by rw [ht] at e; cases e))
            | many l => exact none' (e := typeMap (.many l)) (g := fun x => x) h (nm (fun m e => by rw [ht] at e; cases e))

/-- **C84** (exact). A property that can be rendered is marked as it should be exactly when it is not required or the code's rule agrees with JSON Schema on whether it admits `null`. -/
theorem C84_exact_partial (refNull : Ref → Bool) (s : Spec) (required : Bool) (sig : String) (b : Bool) (h : signature s required = .ok (sig, b)) :
    (b = true ↔ required = false ∨ admitsNull refNull s = true) ↔ (required = false ∨ (Marked s ↔ admitsNull refNull s = true)) := by
  rw [signature_marked h]
  cases required with
  | false => simp
  | true => simp

/-- **C84** (violation). Required properties that admit `null` but are not marked: type `null`, no restriction at all, a union with an `enum` that has `null`. A required property marked though it does not admit `null`: an enum with `null` whose `type` is `string`. -/
theorem C84_marker_violation (refNull : Ref → Bool) :
    (signature { type := some (.one "null") } true = .ok ("null", false) ∧ admitsNull refNull { type := some (.one "null") } = true) ∧
    (signature {} true = .ok ("any", false) ∧ admitsNull refNull {} = true) ∧
    (signature { anyOf := some [{ enum := some [.str "a", .null] }] } true = .ok ("\"a\" | null", false) ∧ admitsNull refNull { anyOf := some [{ enum := some [.str "a", .null] }] } = true) ∧
    (signature { enum := some [.str "a", .null], type := some (.one "string") } true = .ok ("\"a\" | null", true) ∧ admitsNull refNull { enum := some [.str "a", .null], type := some (.one "string") } = false) :=
  ⟨⟨by decide, by rfl⟩, ⟨by decide, by rfl⟩, ⟨by decide, by rfl⟩, ⟨by decide, by rfl⟩⟩

/-- **C137** (violation of "rendering never fails"). A `type` given as a list of names, which JSON Schema allows, raises `TypeError`. -/
theorem C137_list_violation : typescriptSchema { properties := some [("x", { type := some (.many ["string", "null"]) })] } 0 = .error .typeError := by decide

/-- No `type` in the property is a list of names. -/
def NoLists (s : Spec) : Prop :=
  (∀ l, s.type ≠ some (.many l)) ∧ (∀ i, s.items = some i → ∀ l, i.type ≠ some (.many l)) ∧
  ∀ os, s.anyOf = some os → ∀ o ∈ os, (∀ l, o.type ≠ some (.many l)) ∧ ∀ i, o.items = some i → ∀ l, i.type ≠ some (.many l)

theorem typeMap_ok {t : Ty} (h : ∀ l, t ≠ .many l) : ∃ s, typeMap t = .ok s := by
  cases t with
  | one n => exact ⟨_, rfl⟩
  | opt n => exact ⟨_, rfl⟩
  | many l => exact absurd rfl (h l)

theorem optText_ok {o : Opt} (h : (∀ l, o.type ≠ some (.many l)) ∧ ∀ i, o.items = some i → ∀ l, i.type ≠ some (.many l)) : ∃ t, optText o = .ok t := by
  obtain ⟨ty, items, ref, enum⟩ := o
  obtain ⟨h1, h2⟩ := h
  simp only at h1 h2
  cases ty with
  | none => cases ref <;> cases enum <;> exact ⟨_, rfl⟩
  | some t =>
    obtain ⟨s, hs⟩ := typeMap_ok (t := t) (fun l e => h1 l (by rw [e]))
    simp only [optText, optTyped]
    cases items with
    | none => simp only [hs, Except.map]; exact ⟨_, rfl⟩
    | some i =>
      simp only []
      split
      · have hi := h2 i rfl
        obtain ⟨s', hs'⟩ := typeMap_ok (t := i.type.getD (.one "any")) (by
          intro l e
          cases ht : i.type with
          | none => rw [ht] at e; cases e
          | some t' => rw [ht] at e; simp only [Option.getD_some] at e; exact hi l (by rw [ht, e]))
        simp only [optItemType, hs']
        cases i.ref <;> exact ⟨_, rfl⟩
      · simp only [hs, Except.map]; exact ⟨_, rfl⟩

theorem signature_total (s : Spec) (required : Bool) (h : NoLists s) : ∃ r, signature s required = .ok r := by
  obtain ⟨h1, h2, h3⟩ := h
  unfold signature
  split
  · exact ⟨_, rfl⟩
  · split
    · next os hos =>
      obtain ⟨ps, hps⟩ := optParts_ok (os := os) (fun o ho => Or.inr (optText_ok (h3 os hos o ho)))
      rw [hps]; exact ⟨_, rfl⟩
    · unfold plainSignature
      split
      · next t ht =>
        split
        · have : ∃ x, arrayItemType s.items = .ok x := by
            unfold arrayItemType
            split
            · exact ⟨_, rfl⟩
            · next i hi =>
              split
              · next t' ht' => exact typeMap_ok (fun l e => h2 i hi l (by rw [ht', e]))
              · split
                · exact ⟨_, rfl⟩
                · split <;> exact ⟨_, rfl⟩
          obtain ⟨x, hx⟩ := this
          rw [hx]; exact ⟨_, rfl⟩
        · split
          · exact ⟨_, rfl⟩
          · obtain ⟨x, hx⟩ := typeMap_ok (t := t) (fun l e => h1 l (by rw [ht, e]))
            cases t with
            | opt n => exact ⟨_, rfl⟩
            | one n => simp only [simpleType, hx, Except.map]; exact ⟨_, rfl⟩
            | many l => exact absurd ht (h1 l)
      · split <;> exact ⟨_, rfl⟩

/-- **C137** (partial). Rendering a schema never fails when no `type` is a list of names. Missing: list types, see the violation. -/
theorem C137_total_partial (sch : Schema) (indent : Nat) (h : ∀ ps, sch.properties = some ps → ∀ p ∈ ps, NoLists p.2) : ∃ t, typescriptSchema sch indent = .ok t := by
  unfold typescriptSchema
  split
  · exact ⟨_, rfl⟩
  · next ps hps =>
    have key : ∀ ps : Dict String Spec, (∀ p ∈ ps, NoLists p.2) → ∃ ls, linesOf indent sch.required ps = .ok ls := by
      intro ps
      induction ps with
      | nil => intro _; exact ⟨[], rfl⟩
      | cons q ps ih =>
        intro hq
        obtain ⟨ls, hls⟩ := ih (fun p hp => hq p (List.mem_cons_of_mem _ hp))
        obtain ⟨⟨sig, o⟩, hr⟩ := signature_total q.2 (sch.required.contains q.1) (hq q List.mem_cons_self)
        obtain ⟨n, s⟩ := q
        simp only [linesOf, line]
        simp only at hr
        rw [hr, hls]; exact ⟨_, rfl⟩
    obtain ⟨ls, hls⟩ := key ps (h ps hps)
    rw [hls]; exact ⟨_, rfl⟩

/-! ### A schema -/

def sample : Schema := {
  properties := some [
    ("name", { type := some (.one "string"), description := some "the name" }),
    ("age", { anyOf := some [{ type := some (.one "integer") }, { type := some (.one "null") }], default := some .null }),
    ("tags", { type := some (.one "array"), items := some { type := some (.one "string") } }),
    ("mode", { enum := some [.str "a", .str "b"], default := some (.str "a") })],
  required := ["name", "age", "mode"] }

example : typescriptSchema sample 1 = .ok "  name: string - the name\n  age?: int | null = null\n  tags?: string[]\n  mode: \"a\" | \"b\" = \"a\"" := by decide

example : ∀ p ∈ sample.properties.get!, Usual p.2 := by
  intro p hp
  simp [sample] at hp
  rcases hp with h | h | h | h <;> subst h
  · exact .type "string" none _ (by decide)
  · refine .anyOf _ _ none none ?_
    intro o ho
    simp at ho
    rcases ho with h | h <;> subst h
    · exact Or.inr ⟨"integer", by decide, Or.inl rfl⟩
    · exact Or.inl rfl
  · exact .array none none "string"
  · exact .enum _ _ none none

end Verif.TypeScript
