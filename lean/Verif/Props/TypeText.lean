import Verif.Props.TypeScript

/-!
# C241, C242: the text of a rendered property, and whether it determines the allowed values
-/

set_option linter.unusedSectionVars false
set_option linter.unusedSimpArgs false
set_option linter.unusedVariables false

namespace Verif.TypeScript

/-! ### Specification of the texts -/

/-- Type names: three are renamed, the others stay. -/
inductive NameText : String → String → Prop
  | integer : NameText "integer" "int"
  | number : NameText "number" "float"
  | boolean : NameText "boolean" "bool"
  | same (n : String) (h : n ∉ ["integer", "number", "boolean"]) : NameText n n

/-- Values of an enumeration: strings in double quotes, `null`, other values as Python prints them. -/
inductive ValText : Val → String → Prop
  | str (s : String) : ValText (.str s) ("\"" ++ s ++ "\"")
  | null : ValText .null "null"
  | yes : ValText (.bool true) "True"
  | no : ValText (.bool false) "False"
  | other (t : String) : ValText (.other t) t

/-- An enumeration: its values in order, separated by ` | `. -/
inductive EnumText : List Val → String → Prop
  | one {v t} : ValText v t → EnumText [v] t
  | more {v t w l u} : ValText v t → EnumText (w :: l) u → EnumText (v :: w :: l) (t ++ " | " ++ u)

/-- The items of an array. -/
inductive ItemText : Option Item → String → Prop
  | absent : ItemText none "any"
  | free : ItemText (some {}) "any"
  | name {n t} : NameText n t → ItemText (some { type := some (.one n) }) t
  | ref (path : List String) (last : String) : ItemText (some { ref := some (path ++ [last]) }) last
  | enum {l t} : EnumText l t → ItemText (some { enum := some l }) ("(" ++ t ++ ")")

/-- A member of a union. -/
inductive MemberText : Opt → String → Prop
  | name {n t} (h : n ≠ "null") : NameText n t → MemberText { type := some (.one n) } t
  | array {n t} : NameText n t → MemberText { type := some (.one "array"), items := some { type := some (.one n) } } (t ++ "[]")
  | arrayRef (path : List String) (last : String) : MemberText { type := some (.one "array"), items := some { ref := some (path ++ [last]) } } (last ++ "[]")
  | ref (path : List String) (last : String) : MemberText { ref := some (path ++ [last]) } last
  | enum {l t} : EnumText l t → MemberText { enum := some l } t

/-- The members other than `null`, in order. -/
inductive MembersText : List Opt → List String → Prop
  | nil : MembersText [] []
  | null {os ts} : MembersText os ts → MembersText ({ type := some (.one "null") } :: os) ts
  | cons {o t os ts} : MemberText o t → MembersText os ts → MembersText (o :: os) (t :: ts)

/-- A union: its members joined by ` | `, `null` last; nothing at all is `any`. -/
inductive UnionText : List Opt → String → Prop
  | none {os} : MembersText os [] → { type := some (.one "null") } ∉ os → UnionText os "any"
  | plain {os ts} : MembersText os ts → ts ≠ [] → { type := some (.one "null") } ∉ os → UnionText os (" | ".intercalate ts)
  | nullable {os ts} : MembersText os ts → { type := some (.one "null") } ∈ os → UnionText os (" | ".intercalate (ts ++ ["null"]))

/-- The type of a property. -/
inductive TypeText : Spec → String → Prop
  | enum {s l t} : s.enum = some l → EnumText l t → TypeText s t
  | union {s os t} : s.enum = none → s.anyOf = some os → UnionText os t → TypeText s t
  | array {s t} : s.enum = none → s.anyOf = none → s.type = some (.one "array") → ItemText s.items t → TypeText s (t ++ "[]")
  | ref {s path last} : s.enum = none → s.anyOf = none → s.type ≠ some (.one "array") → s.ref = some (path ++ [last]) → TypeText s last
  | name {s n t} : s.enum = none → s.anyOf = none → n ≠ "array" → s.type = some (.one n) → s.ref = none → NameText n t → TypeText s t
  | optional {s n t} : s.enum = none → s.anyOf = none → s.type = some (.opt n) → s.ref = none → NameText n t → TypeText s t
  | free {s} : s.enum = none → s.anyOf = none → s.type = none → s.ref = none → TypeText s "any"

/-- The default value: strings in double quotes, `null`, `true`, `false`, other values as Python prints them. -/
inductive DefaultText : Option Val → String → Prop
  | absent : DefaultText none ""
  | str (s : String) : DefaultText (some (.str s)) (" = \"" ++ s ++ "\"")
  | null : DefaultText (some .null) " = null"
  | yes : DefaultText (some (.bool true)) " = true"
  | no : DefaultText (some (.bool false)) " = false"
  | other (t : String) : DefaultText (some (.other t)) (" = " ++ t)

/-- The description, if it has text. -/
inductive DescText : Option String → String → Prop
  | absent : DescText none ""
  | empty : DescText (some "") ""
  | text (d : String) (h : d ≠ "") : DescText (some d) (" - " ++ d)

/-- The line of a property: two spaces per level, the name, possibly `?`, the type, the default, the description. -/
def LineText (indent : Nat) (p : String × Spec) (l : String) : Prop :=
  ∃ pad mark ty df ds, l = pad ++ p.1 ++ mark ++ ": " ++ ty ++ df ++ ds ∧ pad.toList = List.replicate (2 * indent) ' ' ∧ (mark = "" ∨ mark = "?") ∧
    TypeText p.2 ty ∧ DefaultText p.2.default df ∧ DescText p.2.description ds

/-! ### The code meets it -/

theorem nameText {n t : String} (h : NameText n t) : typeName n = t := by
  cases h with
  | integer => rfl
  | number => rfl
  | boolean => rfl
  | same n h => simp only [List.mem_cons, List.not_mem_nil, or_false, not_or] at h; simp [typeName, h.1, h.2.1, h.2.2]

theorem valText {v : Val} {t : String} (h : ValText v t) : enumText v = t := by cases h <;> rfl

theorem enumUnionText {l : List Val} {t : String} (h : EnumText l t) : enumUnion l = t := by
  induction h with
  | one h => simp [enumUnion, valText h]
  | more h _ ih =>
    simp only [enumUnion, List.map_cons] at ih ⊢
    rw [String.intercalate_cons_cons, ih, valText h]

theorem itemText {i : Option Item} {t : String} (h : ItemText i t) : arrayItemType i = .ok t := by
  cases h with
  | absent => rfl
  | free => rfl
  | name h => simp [arrayItemType, typeMap, nameText h]
  | ref path last => simp [arrayItemType, refName]
  | enum h => simp [arrayItemType, enumUnionText h]

theorem memberText {o : Opt} {t : String} (h : MemberText o t) : isNullOpt o = false ∧ optText o = .ok (some t) := by
  cases h with
  | name hn h => exact ⟨by simp [isNullOpt, hn], by simp [optText, optTyped, typeMap, Except.map, nameText h]⟩
  | array h => exact ⟨rfl, by simp [optText, optTyped, isArray, optItemType, typeMap, Except.map, nameText h]⟩
  | arrayRef path last => exact ⟨rfl, by simp [optText, optTyped, isArray, optItemType, typeMap, Except.map, refName]⟩
  | ref path last => exact ⟨rfl, by simp [optText, refName]⟩
  | enum h => exact ⟨rfl, by simp [optText, enumUnionText h]⟩

theorem membersText {os : List Opt} {ts : List String} (h : MembersText os ts) :
    optParts os = .ok ts ∧ (os.any isNullOpt = true ↔ { type := some (.one "null") } ∈ os) := by
  induction h with
  | nil => exact ⟨rfl, by simp⟩
  | null _ ih =>
    refine ⟨?_, ?_⟩
    · simp only [optParts]; rw [if_pos (by rfl)]; exact ih.1
    · simp only [List.any_cons, List.mem_cons, true_or, iff_true, Bool.or_eq_true]; exact Or.inl rfl
  | @cons o t os ts h _ ih =>
    obtain ⟨h1, h2⟩ := memberText h
    refine ⟨by simp [optParts, h1, h2, ih.1], ?_⟩
    have hne : ({ type := some (.one "null") } : Opt) ≠ o := by rintro rfl; cases h1
    simp only [List.any_cons, h1, Bool.false_or, List.mem_cons, hne, false_or]
    exact ih.2

theorem unionOk {os : List Opt} {t : String} (h : UnionText os t) : ∃ ps, optParts os = .ok ps ∧ unionText ps (os.any isNullOpt) = t := by
  cases h with
  | none hm hn =>
    obtain ⟨h1, h2⟩ := membersText hm
    have : os.any isNullOpt = false := by rw [Bool.eq_false_iff]; exact fun h => hn (h2.1 h)
    exact ⟨_, h1, by rw [this]; rfl⟩
  | @plain ts hm hne hn =>
    obtain ⟨h1, h2⟩ := membersText hm
    have : os.any isNullOpt = false := by rw [Bool.eq_false_iff]; exact fun h => hn (h2.1 h)
    refine ⟨_, h1, ?_⟩
    cases ts with
    | nil => exact absurd rfl hne
    | cons a ts => simp [this, unionText]
  | @nullable ts hm hn =>
    obtain ⟨h1, h2⟩ := membersText hm
    refine ⟨_, h1, ?_⟩
    simp [h2.2 hn, unionText]

theorem typeText {s : Spec} {t : String} (h : TypeText s t) (required : Bool) : ∃ b, signature s required = .ok (t, b) := by
  cases h with
  | enum he h => exact ⟨_, by simp only [signature, he, enumUnionText h]; rfl⟩
  | union he ha h =>
    obtain ⟨ps, h1, h2⟩ := unionOk h
    exact ⟨_, by simp only [signature, he, ha, h1, Except.map, h2]; rfl⟩
  | array he ha ht h => exact ⟨_, by simp only [signature, plainSignature, he, ha, ht, isArray, decide_true, if_true, itemText h, Except.map]; rfl⟩
  | ref he ha ht hr =>
    simp only [signature, he, ha, plainSignature]
    cases hty : s.type with
    | none => exact ⟨_, by simp only [hr, refName, List.getLastD_concat]; rfl⟩
    | some ty =>
      have : isArray ty = false := by
        simp only [isArray, decide_eq_false_iff_not]; intro e; exact ht (by rw [hty, e])
      exact ⟨_, by simp only [this, hr, refName, List.getLastD_concat, Bool.false_eq_true, if_false]; rfl⟩
  | name he ha hn ht hr h =>
    exact ⟨_, by simp only [signature, plainSignature, he, ha, ht, hr, isArray, Ty.one.injEq, hn, decide_false, Bool.false_eq_true, if_false, simpleType, typeMap, Except.map, nameText h]; rfl⟩
  | optional he ha ht hr h =>
    exact ⟨_, by simp only [signature, plainSignature, he, ha, ht, hr, isArray, reduceCtorEq, decide_false, Bool.false_eq_true, if_false, simpleType, nameText h]; rfl⟩
  | free he ha ht hr => exact ⟨_, by simp only [signature, plainSignature, he, ha, ht, hr]; rfl⟩

theorem defaultText_spec (d : Option Val) : DefaultText d (defaultText d) := by
  cases d with
  | none => exact .absent
  | some v =>
    cases v with
    | null => exact .null
    | bool b =>
      cases b
      · exact .no
      · exact .yes
    | str s => exact .str s
    | other t => exact .other t

theorem descText_spec (d : Option String) : DescText d (descText d) := by
  cases d with
  | none => exact .absent
  | some d =>
    by_cases h : d = ""
    · subst h; exact .empty
    · simp only [descText, if_neg h]; exact .text d h

theorem indentText_spec (n : Nat) : (indentText n).toList = List.replicate (2 * n) ' ' := by
  have key : ∀ n (s : String), (List.foldl (fun r s => r ++ s) s (List.replicate n "  ")).toList = s.toList ++ List.replicate (2 * n) ' ' := by
    intro n
    induction n with
    | zero => intro s; simp
    | succ n ih =>
      intro s
      rw [List.replicate_succ, List.foldl_cons, ih]
      have : 2 * (n + 1) = 2 + 2 * n := by omega
      rw [this, ← List.replicate_append_replicate]
      simp [List.replicate]
  simp only [indentText, String.join]
  simpa using key n ""

/-- C241: every property whose type the rules give a text is rendered as one line with exactly that type text, default and description, in the order of the schema. -/
theorem C241_lines (sch : Schema) (ps : Dict String Spec) (hp : sch.properties = some ps) (indent : Nat) (ht : ∀ p ∈ ps, ∃ t, TypeText p.2 t) :
    ∃ ls, typescriptSchema sch indent = .ok ("\n".intercalate ls) ∧ ls.length = ps.length ∧
      ∀ (i : Nat) p l, ps[i]? = some p → ls[i]? = some l → LineText indent p l := by
  have key : ∀ ps : Dict String Spec, (∀ p ∈ ps, ∃ t, TypeText p.2 t) → ∃ ls, linesOf indent sch.required ps = .ok ls ∧ ls.length = ps.length ∧
      ∀ (i : Nat) p l, ps[i]? = some p → ls[i]? = some l → LineText indent p l := by
    intro ps
    induction ps with
    | nil => intro _; exact ⟨[], rfl, rfl, by intro i p l h; simp at h⟩
    | cons q ps ih =>
      intro hu
      obtain ⟨ls, h1, h2, h3⟩ := ih (fun p hp => hu p (List.mem_cons_of_mem _ hp))
      obtain ⟨n, s⟩ := q
      obtain ⟨t, hty⟩ := hu (n, s) List.mem_cons_self
      obtain ⟨b, hs⟩ := typeText hty (sch.required.contains n)
      simp only [linesOf, line, hs, h1]
      refine ⟨_, rfl, by simp [h2], ?_⟩
      intro i p l hp hl
      cases i with
      | succ i => exact h3 i p l (by simpa using hp) (by simpa using hl)
      | zero =>
        simp at hp hl
        subst hp; subst hl
        refine ⟨_, _, t, _, _, rfl, indentText_spec indent, ?_, hty, defaultText_spec _, descText_spec _⟩
        cases b
        · exact Or.inl rfl
        · exact Or.inr rfl
  obtain ⟨ls, h1, h2, h3⟩ := key ps ht
  refine ⟨ls, ?_, h2, h3⟩
  unfold typescriptSchema
  rw [hp]
  simp only [h1, Except.map]

/-- Each type has only one text, so the line is determined up to the marker. -/
theorem C241_unique (s : Spec) (t u : String) (h : TypeText s t) (h' : TypeText s u) : t = u := by
  obtain ⟨_, e⟩ := typeText h true
  obtain ⟨_, e'⟩ := typeText h' true
  rw [e] at e'
  injection e' with e'
  exact (Prod.mk.injEq .. ▸ e').1

/-- The properties of the sample schema. -/
example : TypeText { enum := some [.str "a", .str "b"], default := some (.str "a") } ("\"" ++ "a" ++ "\"" ++ " | " ++ ("\"" ++ "b" ++ "\"")) :=
  .enum rfl (.more (.str "a") (.one (.str "b")))

example : TypeText { anyOf := some [{ type := some (.one "integer") }, { type := some (.one "null") }], default := some .null } "int | null" :=
  .union rfl rfl (.nullable (ts := ["int"]) (.cons (.name (by decide) .integer) (.null .nil)) (by decide))

example : TypeText { type := some (.one "array"), items := some { type := some (.one "string") } } "string[]" :=
  .array (t := "string") rfl rfl rfl (.name (.same "string" (by decide)))

/-! ### C242: does the text determine the enumeration? -/

/-- Strings without a double quote; other values are printed without spaces and quotes, not as one of the words used for `null` and booleans. -/
def Clean : Val → Prop
  | .str s => '"' ∉ s.toList
  | .other t => t.toList ≠ [] ∧ '"' ∉ t.toList ∧ ' ' ∉ t.toList ∧ t ∉ ["null", "True", "False"]
  | _ => True

/-- A string with a double quote: two different enumerations have the same text. -/
theorem C242_quote_violation :
    typescriptSchema { properties := some [("x", { enum := some [.str "a\" | \"b"] })] } 0 =
      typescriptSchema { properties := some [("x", { enum := some [.str "a", .str "b"] })] } 0 := by decide

theorem split_first {c : Char} : ∀ {a b r r' : List Char}, c ∉ a → c ∉ b → a ++ c :: r = b ++ c :: r' → a = b ∧ r = r'
  | [], [], r, r', _, _, h => by simpa using h
  | [], y :: b, r, r', _, hb, h => by
    simp only [List.nil_append, List.cons_append, List.cons.injEq] at h
    exact absurd (by rw [h.1]; simp) hb
  | x :: a, [], r, r', ha, _, h => by
    simp only [List.nil_append, List.cons_append, List.cons.injEq] at h
    exact absurd (by rw [← h.1]; simp) ha
  | x :: a, y :: b, r, r', ha, hb, h => by
    simp only [List.cons_append, List.cons.injEq] at h
    simp only [List.mem_cons, not_or] at ha hb
    obtain ⟨h1, h2⟩ := split_first ha.2 hb.2 h.2
    exact ⟨by rw [h.1, h1], h2⟩

theorem split_space : ∀ {a b r r' : List Char}, ' ' ∉ a → ' ' ∉ b → (r = [] ∨ ∃ x, r = ' ' :: x) → (r' = [] ∨ ∃ x, r' = ' ' :: x) → a ++ r = b ++ r' → a = b ∧ r = r'
  | [], [], r, r', _, _, _, _, h => by simpa using h
  | [], y :: b, r, r', _, hb, hr, _, h => by
    rcases hr with rfl | ⟨x, rfl⟩
    · cases h
    · simp only [List.nil_append, List.cons_append, List.cons.injEq] at h
      exact absurd (by rw [h.1]; simp) hb
  | x :: a, [], r, r', ha, _, _, hr, h => by
    rcases hr with rfl | ⟨y, rfl⟩
    · cases h
    · simp only [List.nil_append, List.cons_append, List.cons.injEq] at h
      exact absurd (by rw [← h.1]; simp) ha
  | x :: a, y :: b, r, r', ha, hb, hr, hr', h => by
    simp only [List.cons_append, List.cons.injEq] at h
    simp only [List.mem_cons, not_or] at ha hb
    obtain ⟨h1, h2⟩ := split_space ha.2 hb.2 hr hr' h.2
    exact ⟨by rw [h.1, h1], h2⟩

/-- The characters of one value. -/
theorem valChars (v : Val) (h : Clean v) : (∃ s, v = .str s ∧ '"' ∉ s.toList ∧ (enumText v).toList = '"' :: (s.toList ++ ['"'])) ∨
    ((∀ s, v ≠ .str s) ∧ (enumText v).toList ≠ [] ∧ '"' ∉ (enumText v).toList ∧ ' ' ∉ (enumText v).toList) := by
  cases v with
  | str s => left; exact ⟨s, rfl, h, by simp [enumText]⟩
  | null => right; exact ⟨by simp, by decide, by decide, by decide⟩
  | bool b => right; cases b <;> exact ⟨by simp, by decide, by decide, by decide⟩
  | other t => right; exact ⟨by simp, h.1, h.2.1, h.2.2.1⟩

theorem enumText_inj {v w : Val} (hv : Clean v) (hw : Clean w) (nv : ∀ s, v ≠ .str s) (nw : ∀ s, w ≠ .str s) (h : enumText v = enumText w) : v = w := by
  cases v with
  | str s => exact absurd rfl (nv s)
  | null =>
    cases w with
    | str s => exact absurd rfl (nw s)
    | null => rfl
    | bool b => cases b <;> exact absurd h (by decide)
    | other t => simp only [enumText] at h; exact absurd (h ▸ by simp) hw.2.2.2
  | bool b =>
    cases w with
    | str s => exact absurd rfl (nw s)
    | null => cases b <;> exact absurd h (by decide)
    | bool b' => cases b <;> cases b' <;> first | rfl | exact absurd h (by decide)
    | other t => simp only [enumText] at h; exact absurd (h ▸ by cases b <;> simp) hw.2.2.2
  | other t =>
    cases w with
    | str s => exact absurd rfl (nw s)
    | null => simp only [enumText] at h; exact absurd (h ▸ by simp) hv.2.2.2
    | bool b => simp only [enumText] at h; exact absurd (h ▸ by cases b <;> simp) hv.2.2.2
    | other t' => simp only [enumText] at h; rw [h]

/-- What follows the first value. -/
def tailChars : List Val → List Char
  | [] => []
  | v :: l => ' ' :: '|' :: ' ' :: (enumUnion (v :: l)).toList

theorem union_chars (v : Val) (l : List Val) : (enumUnion (v :: l)).toList = (enumText v).toList ++ tailChars l := by
  cases l with
  | nil => simp [enumUnion, tailChars]
  | cons w l =>
    simp only [enumUnion, List.map_cons, tailChars, String.intercalate_cons_cons, String.toList_append]
    simp

theorem tail_shape (l : List Val) : tailChars l = [] ∨ ∃ x, tailChars l = ' ' :: x := by
  cases l with
  | nil => exact Or.inl rfl
  | cons v l => exact Or.inr ⟨_, rfl⟩

theorem union_inj : ∀ (l l' : List Val), l ≠ [] → l' ≠ [] → (∀ v ∈ l, Clean v) → (∀ v ∈ l', Clean v) → enumUnion l = enumUnion l' → l = l'
  | [], _, h, _, _, _, _ => absurd rfl h
  | _ :: _, [], _, h, _, _, _ => absurd rfl h
  | v :: l, w :: l', _, _, hl, hl', h => by
    have hv := hl v List.mem_cons_self
    have hw := hl' w List.mem_cons_self
    have hc := congrArg String.toList h
    rw [union_chars, union_chars] at hc
    have key : v = w ∧ tailChars l = tailChars l' := by
      rcases valChars v hv with ⟨s, rfl, hs, e⟩ | ⟨nv, h1, h2, h3⟩ <;> rcases valChars w hw with ⟨s', rfl, hs', e'⟩ | ⟨nw, h1', h2', h3'⟩
      · rw [e, e'] at hc
        simp only [List.cons_append, List.append_assoc, List.nil_append, List.cons.injEq, true_and] at hc
        obtain ⟨h4, h5⟩ := split_first hs hs' hc
        exact ⟨by rw [String.toList_inj.1 h4], h5⟩
      · exfalso
        rw [e] at hc
        cases hx : (enumText w).toList with
        | nil => exact h1' hx
        | cons x xs =>
          rw [hx] at hc h2'
          simp only [List.cons_append, List.cons.injEq] at hc
          exact h2' (by rw [← hc.1]; simp)
      · exfalso
        rw [e'] at hc
        cases hx : (enumText v).toList with
        | nil => exact h1 hx
        | cons x xs =>
          rw [hx] at hc h2
          simp only [List.cons_append, List.cons.injEq] at hc
          exact h2 (by rw [hc.1]; simp)
      · obtain ⟨h4, h5⟩ := split_space h3 h3' (tail_shape l) (tail_shape l') hc
        exact ⟨enumText_inj hv hw nv nw (String.toList_inj.1 h4), h5⟩
    obtain ⟨rfl, ht⟩ := key
    cases l with
    | nil =>
      cases l' with
      | nil => rfl
      | cons a l' => cases ht
    | cons b l =>
      cases l' with
      | nil => cases ht
      | cons a l' =>
        simp only [tailChars, List.cons.injEq, true_and] at ht
        rw [union_inj (b :: l) (a :: l') (by simp) (by simp) (fun x hx => hl x (List.mem_cons_of_mem _ hx)) (fun x hx => hl' x (List.mem_cons_of_mem _ hx)) (String.toList_inj.1 ht)]

/-- C242 (partial): non-empty enumerations whose strings have no double quote are different whenever their lists of values are, order and repetitions included.
Missing: strings with double quotes, which are not escaped. -/
theorem C242_determined_partial (l l' : List Val) (hl : l ≠ []) (hl' : l' ≠ []) (hc : ∀ v ∈ l, Clean v) (hc' : ∀ v ∈ l', Clean v) (required : Bool) (s s' : String) (b b' : Bool)
    (h : signature { enum := some l } required = .ok (s, b)) (h' : signature { enum := some l' } required = .ok (s', b')) : s = s' ↔ l = l' := by
  simp only [signature] at h h'
  injection h with h; injection h with h1 h2
  injection h' with h'; injection h' with h3 h4
  subst h1; subst h3
  exact ⟨union_inj l l' hl hl' hc hc', fun e => by rw [e]⟩

example : ∀ v ∈ [Val.str "a | b", .null, .other "3", .bool true], Clean v := by
  intro v hv
  simp only [List.mem_cons, List.not_mem_nil, or_false] at hv
  rcases hv with rfl | rfl | rfl | rfl
  · simp only [Clean]; decide
  · trivial
  · simp only [Clean]; decide
  · trivial

end Verif.TypeScript
