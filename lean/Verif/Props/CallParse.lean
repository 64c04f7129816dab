import Verif.Model.CallParse

/-!
# Property C279: parse_function_call accepts exactly calls with literal arguments
-/

set_option linter.unusedSectionVars false
set_option linter.unusedSimpArgs false
set_option linter.unusedVariables false

namespace Verif.CallParse

variable {κ : Type}

/-! ## Specification -/

/-- A number with at most one sign. -/
def SignedNum (N : Num κ) (e : Expr κ) (a : κ) : Prop :=
  (e = .const a ∧ N.isNum a = true) ∨
  (∃ c, e = .unary (some true) (.const c) ∧ N.isNum c = true ∧ a = N.neg c) ∨
  (e = .unary (some false) (.const a) ∧ N.isNum a = true)

mutual
/-- The literals of Python and the values they denote. -/
inductive Denotes (N : Num κ) : Expr κ → Val κ → Prop
  | const (c) : Denotes N (.const c) (.const c)
  | tuple (es vs) : DenotesAll N es vs → Denotes N (.tuple es) (.tuple vs)
  | list (es vs) : DenotesAll N es vs → Denotes N (.list es) (.list vs)
  | set (es vs) : DenotesAll N es vs → hashables vs = true → Denotes N (.set es) (.set vs)
  | emptySet : Denotes N .emptySet (.set .nil)
  | dict (es vs) : DenotesPairs N es vs → Denotes N (.dict es) (.dict vs)
  | sign (op e a) : SignedNum N (.unary op e) a → Denotes N (.unary op e) (.const a)
  | plus (l a b) : SignedNum N l a → N.isComplex a = false → N.isNum b = true → N.isComplex b = true →
      Denotes N (.binop (some false) l (.const b)) (.const (N.add a b))
  | minus (l a b) : SignedNum N l a → N.isComplex a = false → N.isNum b = true → N.isComplex b = true →
      Denotes N (.binop (some true) l (.const b)) (.const (N.sub a b))
/-- Element by element. -/
inductive DenotesAll (N : Num κ) : Exprs κ → Vals κ → Prop
  | nil : DenotesAll N .nil .nil
  | cons (e v es vs) : Denotes N e v → DenotesAll N es vs → DenotesAll N (.cons e es) (.cons v vs)
/-- Entry by entry; keys are hashable. -/
inductive DenotesPairs (N : Num κ) : Entries κ → Pairs κ → Prop
  | nil : DenotesPairs N .nil .nil
  | pair (k k' v v' es vs) : Denotes N k k' → Denotes N v v' → hashable k' = true → DenotesPairs N es vs →
      DenotesPairs N (.pair k v es) (.cons k' v' vs)
end

/-- The positional arguments with their keys. -/
def enum : Nat → List (Expr κ) → List (String × Expr κ)
  | _, [] => []
  | i, e :: es => (posKey i, e) :: enum (i + 1) es

/-- The named keywords. -/
def named : List (Option String × Expr κ) → List (String × Expr κ)
  | [] => []
  | (none, _) :: rest => named rest
  | (some k, e) :: rest => (k, e) :: named rest

/-- `e` is the last expression given for `k`. -/
def LastOf (l : List (String × Expr κ)) (k : String) (e : Expr κ) : Prop :=
  ∃ pre post, l = pre ++ (k, e) :: post ∧ k ∉ post.map Prod.fst

/-! ## literal_eval -/

theorem convNum_iff (N : Num κ) (e : Expr κ) (a : κ) : convNum N e = .ok a ↔ e = .const a ∧ N.isNum a = true := by
  cases e <;> simp [convNum]
  rename_i c
  constructor
  · intro h
    split at h
    · cases h; exact ⟨rfl, by assumption⟩
    · cases h
  · rintro ⟨rfl, h⟩; simp [h]

theorem convSigned_iff (N : Num κ) (e : Expr κ) (a : κ) : convSigned N e = .ok a ↔ SignedNum N e a := by
  unfold SignedNum
  cases e with
  | unary op e =>
    cases op with
    | none => simp [convSigned]
    | some m =>
      simp only [convSigned]
      cases h : convNum N e with
      | error x =>
        have hn : ∀ c, ¬ (e = .const c ∧ N.isNum c = true) := fun c hc => by
          rw [(convNum_iff N e c).2 hc] at h; cases h
        cases m <;> simp [hn] <;> grind
      | ok c =>
        obtain ⟨rfl, hc⟩ := (convNum_iff N e c).1 h
        cases m <;> simp [signed, hc] <;> grind
  | _ => simp [convSigned, convNum_iff]

theorem convBin_iff (N : Num κ) (m : Bool) (l r : Expr κ) (c : κ) : convBin N m l r = .ok c ↔
    ∃ a b, SignedNum N l a ∧ r = .const b ∧ N.isNum b = true ∧ N.isComplex a = false ∧ N.isComplex b = true ∧ c = combine N m a b := by
  unfold convBin
  constructor
  · intro h
    split at h
    · cases h
    · rename_i a ha
      split at h
      · cases h
      · rename_i b hb
        split at h
        · rename_i hc
          cases h
          obtain ⟨rfl, hb'⟩ := (convNum_iff N r b).1 hb
          exact ⟨a, b, (convSigned_iff N l a).1 ha, rfl, hb', hc.1, hc.2, rfl⟩
        · cases h
  · rintro ⟨a, b, ha, rfl, hb, h1, h2, rfl⟩
    simp only [(convSigned_iff N l a).2 ha, (convNum_iff N (.const b) b).2 ⟨rfl, hb⟩, h1, h2, and_self, if_true]

theorem ofNum_iff (r : Except Exc κ) (v : Val κ) : ofNum r = .ok v ↔ ∃ c, r = .ok c ∧ v = .const c := by
  cases r with
  | error x => simp [ofNum]
  | ok c => simp [ofNum]; exact ⟨fun h => h.symm, fun h => h.symm⟩

mutual
theorem conv_sound (N : Num κ) : ∀ (e : Expr κ) (v : Val κ), conv N e = .ok v → Denotes N e v
  | .const c, v, h => by
    simp only [conv] at h; cases h; exact .const c
  | .tuple es, v, h => by
    simp only [conv] at h
    cases h1 : convAll N es with
    | error x => rw [h1] at h; cases h
    | ok vs => rw [h1] at h; cases h; exact .tuple es vs (convAll_sound N es vs h1)
  | .list es, v, h => by
    simp only [conv] at h
    cases h1 : convAll N es with
    | error x => rw [h1] at h; cases h
    | ok vs => rw [h1] at h; cases h; exact .list es vs (convAll_sound N es vs h1)
  | .set es, v, h => by
    simp only [conv] at h
    cases h1 : convSet N es with
    | error x => rw [h1] at h; cases h
    | ok vs =>
      rw [h1] at h; cases h
      have := convSet_sound N es vs h1
      exact .set es vs this.1 this.2
  | .emptySet, v, h => by
    simp only [conv] at h; cases h; exact .emptySet
  | .dict es, v, h => by
    simp only [conv] at h
    cases h1 : convDict N es with
    | error x => rw [h1] at h; cases h
    | ok vs => rw [h1] at h; cases h; exact .dict es vs (convDict_sound N es vs h1)
  | .unary op e, v, h => by
    simp only [conv] at h
    obtain ⟨c, hc, rfl⟩ := (ofNum_iff _ _).1 h
    exact .sign op e c ((convSigned_iff N _ c).1 hc)
  | .binop (some m) l r, v, h => by
    simp only [conv] at h
    obtain ⟨c, hc, rfl⟩ := (ofNum_iff _ _).1 h
    obtain ⟨a, b, ha, rfl, hb, h1, h2, rfl⟩ := (convBin_iff N m l r c).1 hc
    cases m with
    | false => exact .plus l a b ha h1 hb h2
    | true => exact .minus l a b ha h1 hb h2
  | .binop none l r, v, h => by simp only [conv] at h; cases h
  | .other, v, h => by simp only [conv] at h; cases h
theorem convAll_sound (N : Num κ) : ∀ (es : Exprs κ) (vs : Vals κ), convAll N es = .ok vs → DenotesAll N es vs
  | .nil, vs, h => by simp only [convAll] at h; cases h; exact .nil
  | .cons e es, vs, h => by
    simp only [convAll] at h
    cases h1 : conv N e with
    | error x => rw [h1] at h; cases h
    | ok v =>
      rw [h1] at h; simp only at h
      cases h2 : convAll N es with
      | error x => rw [h2] at h; cases h
      | ok vs' => rw [h2] at h; cases h; exact .cons e v es vs' (conv_sound N e v h1) (convAll_sound N es vs' h2)
theorem convSet_sound (N : Num κ) : ∀ (es : Exprs κ) (vs : Vals κ), convSet N es = .ok vs → DenotesAll N es vs ∧ hashables vs = true
  | .nil, vs, h => by simp only [convSet] at h; cases h; exact ⟨.nil, by simp [hashables]⟩
  | .cons e es, vs, h => by
    simp only [convSet] at h
    cases h1 : conv N e with
    | error x => rw [h1] at h; cases h
    | ok v =>
      rw [h1] at h; simp only at h
      cases hh : hashable v with
      | false => rw [hh] at h; simp at h
      | true =>
        rw [hh] at h; simp only [Bool.true_eq_false, if_false] at h
        cases h2 : convSet N es with
        | error x => rw [h2] at h; cases h
        | ok vs' =>
          rw [h2] at h; cases h
          have := convSet_sound N es vs' h2
          exact ⟨.cons e v es vs' (conv_sound N e v h1) this.1, by simp [hashables, hh, this.2]⟩
theorem convDict_sound (N : Num κ) : ∀ (es : Entries κ) (vs : Pairs κ), convDict N es = .ok vs → DenotesPairs N es vs
  | .nil, vs, h => by simp only [convDict] at h; cases h; exact .nil
  | .pair k v es, vs, h => by
    simp only [convDict] at h
    cases h1 : conv N k with
    | error x => rw [h1] at h; cases h
    | ok k' =>
      rw [h1] at h; simp only at h
      cases h2 : conv N v with
      | error x => rw [h2] at h; cases h
      | ok v' =>
        rw [h2] at h; simp only at h
        cases hh : hashable k' with
        | false => rw [hh] at h; simp at h
        | true =>
          rw [hh] at h; simp only [Bool.true_eq_false, if_false] at h
          cases h3 : convDict N es with
          | error x => rw [h3] at h; cases h
          | ok vs' =>
            rw [h3] at h; cases h
            exact .pair k k' v v' es vs' (conv_sound N k k' h1) (conv_sound N v v' h2) hh (convDict_sound N es vs' h3)
  | .unpack v es, vs, h => by simp only [convDict] at h; cases h
end

mutual
theorem conv_complete (N : Num κ) : ∀ (e : Expr κ) (v : Val κ), Denotes N e v → conv N e = .ok v
  | .const c, v, h => by cases h; rfl
  | .tuple es, v, h => by
    cases h with
    | tuple _ vs h => simp only [conv, convAll_complete N es vs h]
  | .list es, v, h => by
    cases h with
    | list _ vs h => simp only [conv, convAll_complete N es vs h]
  | .set es, v, h => by
    cases h with
    | set _ vs h hh => simp only [conv, convSet_complete N es vs h hh]
  | .emptySet, v, h => by cases h; rfl
  | .dict es, v, h => by
    cases h with
    | dict _ vs h => simp only [conv, convDict_complete N es vs h]
  | .unary op e, v, h => by
    cases h with
    | sign _ _ a h => simp only [conv, (convSigned_iff N _ a).2 h, ofNum]
  | .binop op l r, v, h => by
    cases h with
    | plus _ a b h1 h2 h3 h4 =>
      simp only [conv, (convBin_iff N false l (.const b) (N.add a b)).2 ⟨a, b, h1, rfl, h3, h2, h4, rfl⟩, ofNum]
    | minus _ a b h1 h2 h3 h4 =>
      simp only [conv, (convBin_iff N true l (.const b) (N.sub a b)).2 ⟨a, b, h1, rfl, h3, h2, h4, rfl⟩, ofNum]
  | .other, v, h => by cases h
theorem convAll_complete (N : Num κ) : ∀ (es : Exprs κ) (vs : Vals κ), DenotesAll N es vs → convAll N es = .ok vs
  | .nil, vs, h => by cases h; rfl
  | .cons e es, vs, h => by
    cases h with
    | cons _ v _ vs h1 h2 => simp only [convAll, conv_complete N e v h1, convAll_complete N es vs h2]
theorem convSet_complete (N : Num κ) : ∀ (es : Exprs κ) (vs : Vals κ), DenotesAll N es vs → hashables vs = true → convSet N es = .ok vs
  | .nil, vs, h, _ => by cases h; rfl
  | .cons e es, vs, h, hh => by
    cases h with
    | cons _ v _ vs h1 h2 =>
      simp only [hashables, Bool.and_eq_true] at hh
      simp only [convSet, conv_complete N e v h1, hh.1, convSet_complete N es vs h2 hh.2, Bool.true_eq_false, if_false]
theorem convDict_complete (N : Num κ) : ∀ (es : Entries κ) (vs : Pairs κ), DenotesPairs N es vs → convDict N es = .ok vs
  | .nil, vs, h => by cases h; rfl
  | .pair k v es, vs, h => by
    cases h with
    | pair _ k' _ v' _ vs h1 h2 h3 h4 =>
      simp only [convDict, conv_complete N k k' h1, conv_complete N v v' h2, h3, convDict_complete N es vs h4, Bool.true_eq_false, if_false]
  | .unpack v es, vs, h => by cases h
end

theorem conv_iff (N : Num κ) (e : Expr κ) (v : Val κ) : conv N e = .ok v ↔ Denotes N e v :=
  ⟨conv_sound N e v, conv_complete N e v⟩

/-! ## The argument loops -/

/-- One loop over all arguments with their keys. -/
def bindLoop (N : Num κ) : List (String × Expr κ) → Dict String (Val κ) → Except Exc (Dict String (Val κ))
  | [], d => .ok d
  | (k, e) :: rest, d =>
    match conv N e with
    | .error x => .error x
    | .ok v => bindLoop N rest (d.set k v)

theorem posLoop_eq (N : Num κ) : ∀ (es : List (Expr κ)) (i : Nat) (d : Dict String (Val κ)),
    posLoop N i es d = bindLoop N (enum i es) d
  | [], _, _ => rfl
  | e :: es, i, d => by
    simp only [posLoop, enum, bindLoop]
    cases conv N e with
    | error x => rfl
    | ok v => exact posLoop_eq N es (i + 1) _

theorem kwLoop_eq (N : Num κ) : ∀ (kws : List (Option String × Expr κ)) (d : Dict String (Val κ)), (∀ x ∈ kws, x.1 ≠ none) →
    kwLoop N kws d = bindLoop N (named kws) d
  | [], _, _ => rfl
  | (none, e) :: rest, d, h => absurd rfl (h (none, e) (by simp))
  | (some k, e) :: rest, d, h => by
    simp only [kwLoop, named, bindLoop]
    cases conv N e with
    | error x => rfl
    | ok v => exact kwLoop_eq N rest _ (fun x hx => h x (by simp [hx]))

theorem kwLoop_none (N : Num κ) : ∀ (kws : List (Option String × Expr κ)) (d d' : Dict String (Val κ)), kwLoop N kws d = .ok d' →
    ∀ x ∈ kws, x.1 ≠ none
  | [], _, _, _ => by simp
  | (none, e) :: rest, d, d', h => by simp only [kwLoop] at h; cases h
  | (some k, e) :: rest, d, d', h => by
    simp only [kwLoop] at h
    cases h1 : conv N e with
    | error x => rw [h1] at h; cases h
    | ok v =>
      rw [h1] at h; simp only at h
      intro x hx
      rcases List.mem_cons.1 hx with rfl | hx
      · simp
      · exact kwLoop_none N rest _ d' h x hx

theorem bindLoop_append (N : Num κ) : ∀ (l m : List (String × Expr κ)) (d d' : Dict String (Val κ)),
    bindLoop N (l ++ m) d = .ok d' ↔ ∃ d1, bindLoop N l d = .ok d1 ∧ bindLoop N m d1 = .ok d'
  | [], m, d, d' => by simp [bindLoop]
  | (k, e) :: l, m, d, d' => by
    simp only [List.cons_append, bindLoop]
    cases conv N e with
    | error x => simp
    | ok v => exact bindLoop_append N l m _ d'

theorem bindLoop_ok_iff (N : Num κ) : ∀ (l : List (String × Expr κ)) (d : Dict String (Val κ)),
    (∃ d', bindLoop N l d = .ok d') ↔ ∀ x ∈ l, ∃ v, Denotes N x.2 v
  | [], d => by simp [bindLoop]
  | (k, e) :: l, d => by
    simp only [bindLoop, List.mem_cons, forall_eq_or_imp]
    cases h : conv N e with
    | error x =>
      constructor
      · rintro ⟨d', h'⟩; cases h'
      · rintro ⟨⟨v, hv⟩, _⟩
        rw [(conv_iff N e v).2 hv] at h; cases h
    | ok v =>
      simp only
      rw [bindLoop_ok_iff N l]
      exact ⟨fun hl => ⟨⟨v, (conv_iff N e v).1 h⟩, hl⟩, fun hl => hl.2⟩

theorem denotes_unique (N : Num κ) (e : Expr κ) (v w : Val κ) (h : Denotes N e v) (h' : Denotes N e w) : v = w := by
  have h1 := (conv_iff N e v).2 h
  rw [(conv_iff N e w).2 h'] at h1
  exact (Except.ok.inj h1).symm

theorem lastOf_cons (k k' : String) (e e' : Expr κ) (l : List (String × Expr κ)) :
    LastOf ((k, e) :: l) k' e' ↔ LastOf l k' e' ∨ (k' = k ∧ e' = e ∧ k' ∉ l.map Prod.fst) := by
  unfold LastOf
  constructor
  · rintro ⟨pre, post, h, hn⟩
    cases pre with
    | nil =>
      simp only [List.nil_append, List.cons.injEq, Prod.mk.injEq] at h
      obtain ⟨⟨rfl, rfl⟩, rfl⟩ := h
      exact Or.inr ⟨rfl, rfl, hn⟩
    | cons a pre =>
      simp only [List.cons_append, List.cons.injEq] at h
      exact Or.inl ⟨pre, post, h.2, hn⟩
  · rintro (⟨pre, post, h, hn⟩ | ⟨rfl, rfl, hn⟩)
    · exact ⟨(k, e) :: pre, post, by rw [h]; rfl, hn⟩
    · exact ⟨[], l, rfl, hn⟩

theorem lastOf_mem {l : List (String × Expr κ)} {k : String} {e : Expr κ} (h : LastOf l k e) : k ∈ l.map Prod.fst := by
  obtain ⟨pre, post, rfl, _⟩ := h
  simp

theorem bindLoop_get (N : Num κ) : ∀ (l : List (String × Expr κ)) (d d' : Dict String (Val κ)), bindLoop N l d = .ok d' →
    ∀ k v, d'.get? k = some v ↔ (∃ e, LastOf l k e ∧ Denotes N e v) ∨ (k ∉ l.map Prod.fst ∧ d.get? k = some v)
  | [], d, d', h => by
    intro k v
    simp only [bindLoop] at h; cases h
    have : ¬ ∃ e, LastOf ([] : List (String × Expr κ)) k e ∧ Denotes N e v := by
      rintro ⟨e, he, _⟩
      have := lastOf_mem he
      simp at this
    simp [this]
  | (k0, e0) :: l, d, d', h => by
    intro k v
    simp only [bindLoop] at h
    cases h1 : conv N e0 with
    | error x => rw [h1] at h; cases h
    | ok v0 =>
      rw [h1] at h; simp only at h
      rw [bindLoop_get N l _ d' h k v, Dict.get?_set]
      simp only [lastOf_cons, List.map_cons, List.mem_cons, not_or]
      constructor
      · rintro (⟨e, he, hv⟩ | ⟨hn, hg⟩)
        · exact Or.inl ⟨e, Or.inl he, hv⟩
        · split at hg
          · rename_i hk
            cases hg
            exact Or.inl ⟨e0, Or.inr ⟨hk.symm, rfl, hn⟩, (conv_iff N e0 _).1 h1⟩
          · rename_i hk
            exact Or.inr ⟨⟨fun e => hk e.symm, hn⟩, hg⟩
      · rintro (⟨e, he | ⟨rfl, rfl, hn⟩, hv⟩ | ⟨⟨hk, hn⟩, hg⟩)
        · exact Or.inl ⟨e, he, hv⟩
        · refine Or.inr ⟨hn, ?_⟩
          rw [if_pos rfl, denotes_unique N e v0 v ((conv_iff N e v0).1 h1) hv]
        · refine Or.inr ⟨hn, ?_⟩
          rw [if_neg (fun e => hk e.symm)]; exact hg

theorem bindLoop_keys (N : Num κ) : ∀ (l : List (String × Expr κ)) (d d' : Dict String (Val κ)), bindLoop N l d = .ok d' → d.WF →
    (Dict.keys d').length ≤ (Dict.keys d).length + l.length ∧
    ((Dict.keys d').length = (Dict.keys d).length + l.length ↔ (Dict.keys d ++ l.map Prod.fst).Nodup)
  | [], d, d', h, wf => by
    simp only [bindLoop] at h; cases h
    simp only [List.map_nil, List.append_nil, List.length_nil, Nat.add_zero, Nat.le_refl, true_and, true_iff]
    exact wf
  | (k, e) :: l, d, d', h, wf => by
    simp only [bindLoop] at h
    cases h1 : conv N e with
    | error x => rw [h1] at h; cases h
    | ok v =>
      rw [h1] at h; simp only at h
      obtain ⟨i1, i2⟩ := bindLoop_keys N l _ d' h (Dict.set_wf wf k v)
      by_cases hk : k ∈ Dict.keys d
      · rw [Dict.keys_set_of_mem v hk] at i1 i2
        refine ⟨by simp only [List.length_cons]; omega, ?_⟩
        constructor
        · intro hl; simp only [List.length_cons] at hl; omega
        · intro hn
          rw [List.map_cons, List.nodup_append] at hn
          exact absurd rfl (hn.2.2 k hk k (by simp))
      · have hks : Dict.keys (d.set k v) = Dict.keys d ++ [k] := by rw [Dict.set_of_notMem v hk]; simp
        rw [hks] at i1 i2
        simp only [List.length_append, List.length_cons, List.length_nil, List.append_assoc, List.singleton_append, List.map_cons] at i1 i2 ⊢
        exact ⟨by omega, by rw [← i2]; omega⟩

/-! ## C279 -/

theorem parse_ok_iff (N : Num κ) (b : Body κ) (t : String) (d : Dict String (Val κ)) : parse N b = .ok (t, d) ↔
    ∃ f args kws, b = .call f args kws ∧ toolName f = some t ∧ (∀ x ∈ kws, x.1 ≠ none) ∧
      bindLoop N (enum 0 args ++ named kws) [] = .ok d := by
  cases b with
  | syntaxError => simp [parse]
  | notCall => simp [parse]
  | call f args kws =>
    simp only [parse]
    constructor
    · intro h
      split at h
      · cases h
      · rename_i tool ht
        split at h
        · cases h
        · rename_i d1 hd1
          split at h
          · cases h
          · rename_i d2 hd2
            cases h
            have hn := kwLoop_none N kws d1 d hd2
            refine ⟨f, args, kws, rfl, ht, hn, (bindLoop_append N _ _ _ _).2 ⟨d1, ?_, ?_⟩⟩
            · rw [← posLoop_eq]; exact hd1
            · rw [← kwLoop_eq N kws d1 hn]; exact hd2
    · rintro ⟨f', args', kws', hb, ht, hn, hl⟩
      cases hb
      obtain ⟨d1, hd1, hd2⟩ := (bindLoop_append N _ _ _ _).1 hl
      rw [← posLoop_eq] at hd1
      rw [← kwLoop_eq N kws d1 hn] at hd2
      simp only [ht, hd1, hd2]

theorem mem_enum (x : String × Expr κ) : ∀ (es : List (Expr κ)) (i : Nat), x ∈ enum i es → x.2 ∈ es
  | [], _, h => by cases h
  | e :: es, i, h => by
    rcases List.mem_cons.1 h with rfl | h
    · simp
    · exact List.mem_cons_of_mem _ (mem_enum x es (i + 1) h)

theorem enum_mem (e : Expr κ) : ∀ (es : List (Expr κ)) (i : Nat), e ∈ es → ∃ k, (k, e) ∈ enum i es
  | [], _, h => by cases h
  | a :: es, i, h => by
    rcases List.mem_cons.1 h with rfl | h
    · exact ⟨posKey i, by simp [enum]⟩
    · obtain ⟨k, hk⟩ := enum_mem e es (i + 1) h
      exact ⟨k, by simp [enum, hk]⟩

theorem mem_named (k : String) (e : Expr κ) : ∀ (kws : List (Option String × Expr κ)), (k, e) ∈ named kws ↔ (some k, e) ∈ kws
  | [] => by simp [named]
  | (none, _) :: rest => by simp [named, mem_named k e rest]
  | (some k', e') :: rest => by simp [named, mem_named k e rest]

/-- **C279** (what is accepted).  The text is accepted exactly if it is a call of a name or attribute, without `**`, all of whose
arguments are literals: nothing else is ever evaluated. -/
theorem C279_accepts (N : Num κ) (b : Body κ) : (∃ r, parse N b = .ok r) ↔
    ∃ f args kws, b = .call f args kws ∧ f ≠ .other ∧ (∀ e ∈ args, ∃ v, Denotes N e v) ∧
      ∀ x ∈ kws, x.1 ≠ none ∧ ∃ v, Denotes N x.2 v := by
  constructor
  · rintro ⟨⟨t, d⟩, h⟩
    obtain ⟨f, args, kws, rfl, ht, hn, hl⟩ := (parse_ok_iff N b t d).1 h
    have hall := (bindLoop_ok_iff N _ _).1 ⟨d, hl⟩
    refine ⟨f, args, kws, rfl, ?_, ?_, ?_⟩
    · rintro rfl; cases ht
    · intro e he
      obtain ⟨k, hk⟩ := enum_mem e args 0 he
      exact hall (k, e) (by simp [hk])
    · intro x hx
      refine ⟨hn x hx, ?_⟩
      obtain ⟨k, e⟩ := x
      cases k with
      | none => exact absurd rfl (hn _ hx)
      | some k => exact hall (k, e) (List.mem_append.2 (Or.inr ((mem_named k e kws).2 hx)))
  · rintro ⟨f, args, kws, rfl, hf, ha, hk⟩
    obtain ⟨d, hd⟩ := (bindLoop_ok_iff N (enum 0 args ++ named kws) []).2 (by
      intro x hx
      rcases List.mem_append.1 hx with hx | hx
      · exact ha _ (mem_enum x args 0 hx)
      · obtain ⟨k, e⟩ := x
        exact (hk (some k, e) ((mem_named k e kws).1 hx)).2)
    obtain ⟨t, ht⟩ : ∃ t, toolName f = some t := by
      cases f with
      | name s => exact ⟨s, rfl⟩
      | attr s => exact ⟨s, rfl⟩
      | other => exact absurd rfl hf
    exact ⟨(t, d), (parse_ok_iff N _ t d).2 ⟨f, args, kws, rfl, ht, fun x hx => (hk x hx).1, hd⟩⟩

/-- **C279** (what is returned).  The tool is the name or the last attribute; the value under each key is that of the last argument with
this key, the i-th positional argument having the key `_pos_i`. -/
theorem C279_values (N : Num κ) (f : Func) (args : List (Expr κ)) (kws : List (Option String × Expr κ)) (t : String)
    (d : Dict String (Val κ)) (h : parse N (.call f args kws) = .ok (t, d)) :
    (f = .name t ∨ f = .attr t) ∧
    ∀ k v, d.get? k = some v ↔ ∃ e, LastOf (enum 0 args ++ named kws) k e ∧ Denotes N e v := by
  obtain ⟨f', args', kws', hb, ht, hn, hl⟩ := (parse_ok_iff N _ t d).1 h
  cases hb
  refine ⟨?_, fun k v => ?_⟩
  · cases f with
    | name s => cases ht; exact Or.inl rfl
    | attr s => cases ht; exact Or.inr rfl
    | other => cases ht
  · rw [bindLoop_get N _ _ d hl k v]
    simp

theorem repr_inj {i j : Nat} (h : toString i = toString j) : i = j := by
  have h1 : Nat.toDigits 10 i = Nat.toDigits 10 j := by
    have : (toString i).toList = (toString j).toList := by rw [h]
    simpa [Nat.repr, toString] using this
  rw [← Nat.ofDigitChars_ten_toDigits (n := i), h1, Nat.ofDigitChars_ten_toDigits]

theorem posKey_inj {i j : Nat} (h : posKey i = posKey j) : i = j := by
  have : (posKey i).toList = (posKey j).toList := by rw [h]
  unfold posKey at this
  rw [String.toList_append, String.toList_append, List.append_cancel_left_eq] at this
  exact repr_inj (String.toList_inj.1 this)

theorem enum_length : ∀ (es : List (Expr κ)) (i : Nat), (enum i es).length = es.length
  | [], _ => rfl
  | e :: es, i => by simp [enum, enum_length es (i + 1)]

theorem mem_enum_keys (k : String) : ∀ (es : List (Expr κ)) (i : Nat), k ∈ (enum i es).map Prod.fst ↔ ∃ j, i ≤ j ∧ j < i + es.length ∧ k = posKey j
  | [], i => by simp [enum]; omega
  | e :: es, i => by
    simp only [enum, List.map_cons, List.mem_cons, mem_enum_keys k es (i + 1), List.length_cons]
    constructor
    · rintro (rfl | ⟨j, h1, h2, rfl⟩)
      · exact ⟨i, by omega, by omega, rfl⟩
      · exact ⟨j, by omega, by omega, rfl⟩
    · rintro ⟨j, h1, h2, rfl⟩
      by_cases e : j = i
      · exact Or.inl (by rw [e])
      · exact Or.inr ⟨j, by omega, by omega, rfl⟩

theorem enum_nodup : ∀ (es : List (Expr κ)) (i : Nat), ((enum i es).map Prod.fst).Nodup
  | [], _ => by simp [enum]
  | e :: es, i => by
    simp only [enum, List.map_cons, List.nodup_cons]
    refine ⟨?_, enum_nodup es (i + 1)⟩
    rw [mem_enum_keys]
    rintro ⟨j, h1, _, h3⟩
    have := posKey_inj h3
    omega

theorem named_length : ∀ (kws : List (Option String × Expr κ)), (∀ x ∈ kws, x.1 ≠ none) → (named kws).length = kws.length
  | [], _ => rfl
  | (none, e) :: rest, h => absurd rfl (h (none, e) (by simp))
  | (some k, e) :: rest, h => by simp [named, named_length rest (fun x hx => h x (by simp [hx]))]

/-- **C279** (exactly when no argument is lost).  The result has an entry for every argument exactly if the keyword names are distinct and
none of them is the key `_pos_i` of a positional argument. -/
theorem C279_exact_partial (N : Num κ) (f : Func) (args : List (Expr κ)) (kws : List (Option String × Expr κ)) (t : String)
    (d : Dict String (Val κ)) (h : parse N (.call f args kws) = .ok (t, d)) :
    (Dict.keys d).length = args.length + kws.length ↔
      ((named kws).map Prod.fst).Nodup ∧ ∀ i, i < args.length → posKey i ∉ (named kws).map Prod.fst := by
  obtain ⟨f', args', kws', hb, ht, hn, hl⟩ := (parse_ok_iff N _ t d).1 h
  cases hb
  have hk := (bindLoop_keys N _ _ d hl List.nodup_nil).2
  simp only [Dict.keys_nil, List.length_nil, Nat.zero_add, List.length_append, enum_length, named_length kws hn, List.nil_append] at hk
  rw [hk, List.map_append, List.nodup_append]
  constructor
  · rintro ⟨_, h2, h3⟩
    refine ⟨h2, fun i hi hm => ?_⟩
    exact h3 (posKey i) ((mem_enum_keys _ args 0).2 ⟨i, by omega, by omega, rfl⟩) (posKey i) hm rfl
  · rintro ⟨h2, h3⟩
    refine ⟨enum_nodup args 0, h2, ?_⟩
    rintro a ha b hb rfl
    obtain ⟨j, _, hj, rfl⟩ := (mem_enum_keys _ args 0).1 ha
    exact h3 j (by omega) hb

mutual
/-- No set display and no dict key in the expression has an unhashable element. -/
def Clean (N : Num κ) : Expr κ → Prop
  | .tuple es => CleanAll N es
  | .list es => CleanAll N es
  | .set es => CleanSet N es
  | .dict es => CleanDict N es
  | _ => True
def CleanAll (N : Num κ) : Exprs κ → Prop
  | .nil => True
  | .cons e es => Clean N e ∧ CleanAll N es
def CleanSet (N : Num κ) : Exprs κ → Prop
  | .nil => True
  | .cons e es => Clean N e ∧ (∀ v, Denotes N e v → hashable v = true) ∧ CleanSet N es
def CleanDict (N : Num κ) : Entries κ → Prop
  | .nil => True
  | .pair k v es => Clean N k ∧ (∀ w, Denotes N k w → hashable w = true) ∧ Clean N v ∧ CleanDict N es
  | .unpack _ _ => True
end

theorem convNum_err (N : Num κ) (e : Expr κ) (x : Exc) (h : convNum N e = .error x) : x = .valueError := by
  cases e <;> simp only [convNum] at h <;> first | (cases h; rfl) | (split at h <;> cases h; rfl)

theorem convSigned_err (N : Num κ) (e : Expr κ) (x : Exc) (h : convSigned N e = .error x) : x = .valueError := by
  cases e with
  | unary op e =>
    cases op with
    | none => simp only [convSigned] at h; cases h; rfl
    | some m =>
      simp only [convSigned] at h
      cases h1 : convNum N e with
      | error y => rw [h1] at h; cases h; exact convNum_err N e _ h1
      | ok c => rw [h1] at h; cases h
  | _ => simp only [convSigned] at h; exact convNum_err N _ x h

theorem convBin_err (N : Num κ) (m : Bool) (l r : Expr κ) (x : Exc) (h : convBin N m l r = .error x) : x = .valueError := by
  unfold convBin at h
  split at h
  · rename_i y hy; cases h; exact convSigned_err N l _ hy
  · split at h
    · rename_i y hy; cases h; exact convNum_err N r _ hy
    · split at h <;> cases h; rfl

theorem ofNum_err (r : Except Exc κ) (x : Exc) (h : ofNum r = .error x) : r = .error x := by
  cases r with
  | error y => simp only [ofNum] at h; cases h; rfl
  | ok c => cases h

/-- Errors of `literal_eval`: `ValueError`, or `TypeError` in an expression that is not clean. -/
def Fault (clean : Prop) (x : Exc) : Prop := x = .valueError ∨ (x = .typeError ∧ ¬ clean)

theorem Fault.mono {p q : Prop} {x : Exc} (h : Fault p x) (hq : q → p) : Fault q x := by
  rcases h with h | ⟨h, hp⟩
  · exact Or.inl h
  · exact Or.inr ⟨h, fun hh => hp (hq hh)⟩

mutual
theorem conv_err (N : Num κ) : ∀ (e : Expr κ) (x : Exc), conv N e = .error x → Fault (Clean N e) x
  | .const c, x, h => by simp only [conv] at h; cases h
  | .tuple es, x, h => by
    simp only [conv] at h
    cases h1 : convAll N es with
    | ok vs => rw [h1] at h; cases h
    | error y => rw [h1] at h; cases h; exact (convAll_err N es _ h1).mono (fun hc => by simpa only [Clean] using hc)
  | .list es, x, h => by
    simp only [conv] at h
    cases h1 : convAll N es with
    | ok vs => rw [h1] at h; cases h
    | error y => rw [h1] at h; cases h; exact (convAll_err N es _ h1).mono (fun hc => by simpa only [Clean] using hc)
  | .set es, x, h => by
    simp only [conv] at h
    cases h1 : convSet N es with
    | ok vs => rw [h1] at h; cases h
    | error y => rw [h1] at h; cases h; exact (convSet_err N es _ h1).mono (fun hc => by simpa only [Clean] using hc)
  | .emptySet, x, h => by simp only [conv] at h; cases h
  | .dict es, x, h => by
    simp only [conv] at h
    cases h1 : convDict N es with
    | ok vs => rw [h1] at h; cases h
    | error y => rw [h1] at h; cases h; exact (convDict_err N es _ h1).mono (fun hc => by simpa only [Clean] using hc)
  | .unary op e, x, h => by
    simp only [conv] at h
    exact Or.inl (convSigned_err N _ x (ofNum_err _ _ h))
  | .binop (some m) l r, x, h => by
    simp only [conv] at h
    exact Or.inl (convBin_err N m l r x (ofNum_err _ _ h))
  | .binop none l r, x, h => by simp only [conv] at h; cases h; exact Or.inl rfl
  | .other, x, h => by simp only [conv] at h; cases h; exact Or.inl rfl
theorem convAll_err (N : Num κ) : ∀ (es : Exprs κ) (x : Exc), convAll N es = .error x → Fault (CleanAll N es) x
  | .nil, x, h => by simp only [convAll] at h; cases h
  | .cons e es, x, h => by
    simp only [convAll] at h
    cases h1 : conv N e with
    | error y => rw [h1] at h; cases h; exact (conv_err N e _ h1).mono (fun hc => by simp only [CleanAll] at hc; exact hc.1)
    | ok v =>
      rw [h1] at h; simp only at h
      cases h2 : convAll N es with
      | ok vs' => rw [h2] at h; cases h
      | error y => rw [h2] at h; cases h; exact (convAll_err N es _ h2).mono (fun hc => by simp only [CleanAll] at hc; exact hc.2)
theorem convSet_err (N : Num κ) : ∀ (es : Exprs κ) (x : Exc), convSet N es = .error x → Fault (CleanSet N es) x
  | .nil, x, h => by simp only [convSet] at h; cases h
  | .cons e es, x, h => by
    simp only [convSet] at h
    cases h1 : conv N e with
    | error y => rw [h1] at h; cases h; exact (conv_err N e _ h1).mono (fun hc => by simp only [CleanSet] at hc; exact hc.1)
    | ok v =>
      rw [h1] at h; simp only at h
      cases hh : hashable v with
      | false =>
        rw [hh] at h; simp only [if_true] at h; cases h
        refine Or.inr ⟨rfl, fun hc => ?_⟩
        simp only [CleanSet] at hc
        have := hc.2.1 v ((conv_iff N e v).1 h1)
        rw [hh] at this; cases this
      | true =>
        rw [hh] at h; simp only [Bool.true_eq_false, if_false] at h
        cases h2 : convSet N es with
        | ok vs' => rw [h2] at h; cases h
        | error y => rw [h2] at h; cases h; exact (convSet_err N es _ h2).mono (fun hc => by simp only [CleanSet] at hc; exact hc.2.2)
theorem convDict_err (N : Num κ) : ∀ (es : Entries κ) (x : Exc), convDict N es = .error x → Fault (CleanDict N es) x
  | .nil, x, h => by simp only [convDict] at h; cases h
  | .pair k v es, x, h => by
    simp only [convDict] at h
    cases h1 : conv N k with
    | error y => rw [h1] at h; cases h; exact (conv_err N k _ h1).mono (fun hc => by simp only [CleanDict] at hc; exact hc.1)
    | ok k' =>
      rw [h1] at h; simp only at h
      cases h2 : conv N v with
      | error y => rw [h2] at h; cases h; exact (conv_err N v _ h2).mono (fun hc => by simp only [CleanDict] at hc; exact hc.2.2.1)
      | ok v' =>
        rw [h2] at h; simp only at h
        cases hh : hashable k' with
        | false =>
          rw [hh] at h; simp only [if_true] at h; cases h
          refine Or.inr ⟨rfl, fun hc => ?_⟩
          simp only [CleanDict] at hc
          have := hc.2.1 k' ((conv_iff N k k').1 h1)
          rw [hh] at this; cases this
        | true =>
          rw [hh] at h; simp only [Bool.true_eq_false, if_false] at h
          cases h3 : convDict N es with
          | ok vs' => rw [h3] at h; cases h
          | error y => rw [h3] at h; cases h; exact (convDict_err N es _ h3).mono (fun hc => by simp only [CleanDict] at hc; exact hc.2.2.2)
  | .unpack v es, x, h => by simp only [convDict] at h; cases h; exact Or.inl rfl
end

theorem posLoop_err (N : Num κ) : ∀ (es : List (Expr κ)) (i : Nat) (d : Dict String (Val κ)) (x : Exc), posLoop N i es d = .error x →
    Fault (∀ e ∈ es, Clean N e) x
  | [], _, _, x, h => by simp only [posLoop] at h; cases h
  | e :: es, i, d, x, h => by
    simp only [posLoop] at h
    cases h1 : conv N e with
    | error y => rw [h1] at h; cases h; exact (conv_err N e _ h1).mono (fun hc => hc e (by simp))
    | ok v =>
      rw [h1] at h
      exact (posLoop_err N es (i + 1) _ x h).mono (fun hc e' he' => hc e' (by simp [he']))

theorem kwLoop_err (N : Num κ) : ∀ (kws : List (Option String × Expr κ)) (d : Dict String (Val κ)) (x : Exc), kwLoop N kws d = .error x →
    Fault (∀ k ∈ kws, Clean N k.2) x
  | [], _, x, h => by simp only [kwLoop] at h; cases h
  | (none, e) :: rest, d, x, h => by simp only [kwLoop] at h; cases h; exact Or.inl rfl
  | (some k, e) :: rest, d, x, h => by
    simp only [kwLoop] at h
    cases h1 : conv N e with
    | error y => rw [h1] at h; cases h; exact (conv_err N e _ h1).mono (fun hc => hc (some k, e) (by simp))
    | ok v =>
      rw [h1] at h
      exact (kwLoop_err N rest _ x h).mono (fun hc e' he' => hc e' (by simp [he']))

/-- **C279** (refusals).  A refused text raises `ValueError`, or `TypeError`; the latter only if a set or a dict key written in an argument
has an unhashable element.  Missing: such a text raises `TypeError` (`C279_type_error_violation`). -/
theorem C279_errors_partial (N : Num κ) (b : Body κ) (x : Exc) (h : parse N b = .error x) :
    x = .valueError ∨ (x = .typeError ∧ ∃ f args kws, b = .call f args kws ∧
      ¬ ((∀ e ∈ args, Clean N e) ∧ ∀ k ∈ kws, Clean N k.2)) := by
  cases b with
  | syntaxError => cases h; exact Or.inl rfl
  | notCall => cases h; exact Or.inl rfl
  | call f args kws =>
    simp only [parse] at h
    split at h
    · cases h; exact Or.inl rfl
    · split at h
      · rename_i y hy
        cases h
        rcases posLoop_err N _ _ _ _ hy with h1 | ⟨h1, h2⟩
        · exact Or.inl h1
        · exact Or.inr ⟨h1, f, args, kws, rfl, fun hc => h2 hc.1⟩
      · split at h
        · rename_i y hy
          cases h
          rcases kwLoop_err N _ _ _ hy with h1 | ⟨h1, h2⟩
          · exact Or.inl h1
          · exact Or.inr ⟨h1, f, args, kws, rfl, fun hc => h2 hc.2⟩
        · cases h

/-- Constants that are all numbers; 0 is real and everything else imaginary. -/
def demoN : Num Nat := ⟨fun _ => true, fun n => decide (n ≠ 0), id, Nat.add, Nat.sub⟩

/-- Non-vacuity: `client.search((5, -3), {0: [7]}, limit=0+4j)` is accepted with all its arguments; `f(x)` and `f(**d)` are refused. -/
example : (parse demoN (.call (.attr "search")
    [.tuple (.cons (.const 5) (.cons (.unary (some true) (.const 3)) .nil)), .dict (.pair (.const 0) (.list (.cons (.const 7) .nil)) .nil)]
    [(some "limit", .binop (some false) (.const 0) (.const 4))])).toOption.map (fun r => (r.1, Dict.keys r.2)) =
      some ("search", ["_pos_0", "_pos_1", "limit"]) := by decide

example : (parse demoN (.call (.name "f") [.other] [])).isOk = false ∧ (parse demoN (.call (.name "f") [] [(none, .const 1)])).isOk = false :=
  ⟨by rfl, by rfl⟩

/-- `f(a=1, a=2)` is accepted (the duplicate is found by the compiler, which is not run) and the first value is lost. -/
theorem C279_duplicate_violation :
    (parse demoN (.call (.name "f") [] [(some "a", .const 1), (some "a", .const 2)])).toOption.map (fun r => (r.1, Dict.keys r.2)) =
      some ("f", ["a"]) := by decide

/-- `f(1, _pos_0=2)` loses the positional argument. -/
theorem C279_reserved_violation :
    (parse demoN (.call (.name "f") [.const 1] [(some "_pos_0", .const 2)])).toOption.map (fun r => (r.1, Dict.keys r.2)) =
      some ("f", ["_pos_0"]) := by decide

/-- `f({[]: 0})`: the documented exception is `ValueError`, but `TypeError` escapes. -/
theorem C279_type_error_violation :
    (parse demoN (.call (.name "f") [.dict (.pair (.list .nil) (.const 0) .nil)] [])).isOk = false ∧
    parse demoN (.call (.name "f") [.dict (.pair (.list .nil) (.const 0) .nil)] []) = .error .typeError := ⟨by rfl, by rfl⟩

/-- `v` is one of the elements. -/
inductive Among : Val κ → Vals κ → Prop where
  | here (v vs) : Among v (.cons v vs)
  | there (v w vs) : Among v vs → Among v (.cons w vs)

/-- `v` contains, inside tuples only, a list, a set or a dict. -/
inductive Holds : Val κ → Prop where
  | list (vs) : Holds (.list vs)
  | set (vs) : Holds (.set vs)
  | dict (vs) : Holds (.dict vs)
  | tuple (vs v) : Among v vs → Holds v → Holds (.tuple vs)

mutual
theorem hashable_of_not_holds : ∀ (v : Val κ), ¬ Holds v → hashable v = true
  | .const _, _ => by simp only [hashable]
  | .tuple vs, h => by
    simp only [hashable]
    exact hashables_of_not_holds vs (fun v hv hh => h (.tuple vs v hv hh))
  | .list vs, h => absurd (.list vs) h
  | .set vs, h => absurd (.set vs) h
  | .dict vs, h => absurd (.dict vs) h
theorem hashables_of_not_holds : ∀ (vs : Vals κ), (∀ v, Among v vs → ¬ Holds v) → hashables vs = true
  | .nil, _ => by simp only [hashables]
  | .cons v vs, h => by
    simp only [hashables, hashable_of_not_holds v (h v (.here v vs)), hashables_of_not_holds vs (fun w hw => h w (.there w v vs hw)), Bool.and_self]
end

theorem hashable_of_among {v : Val κ} {vs : Vals κ} (h : Among v vs) (hh : hashables vs = true) : hashable v = true := by
  induction h with
  | here vs =>
    simp only [hashables, Bool.and_eq_true] at hh
    exact hh.1
  | there w vs _ ih =>
    simp only [hashables, Bool.and_eq_true] at hh
    exact ih hh.2

/-- **C279**, which displays are refused for their elements: a value can be an element of a set or the key of a dict if and only if it contains no list, set or dict
inside tuples. -/
theorem C279_hashable (v : Val κ) : hashable v = true ↔ ¬ Holds v := by
  refine ⟨fun h hh => ?_, hashable_of_not_holds v⟩
  induction hh with
  | list vs => simp [hashable] at h
  | set vs => simp [hashable] at h
  | dict vs => simp [hashable] at h
  | tuple vs v ha hv ih =>
    simp only [hashable] at h
    exact ih (hashable_of_among ha h)

/-- Non-vacuity: `(1, ([],))` contains a list, `(1, (2,))` does not. -/
example : Holds (.tuple (.cons (.const 1) (.cons (.tuple (.cons (.list .nil) .nil)) .nil)) : Val Nat) ∧
    ¬ Holds (.tuple (.cons (.const 1) (.cons (.tuple (.cons (.const 2) .nil)) .nil)) : Val Nat) := by
  refine ⟨.tuple _ _ (.there _ _ _ (.here _ _)) (.tuple _ _ (.here _ _) (.list _)), ?_⟩
  exact (C279_hashable _).1 rfl

end Verif.CallParse
