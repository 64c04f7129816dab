import Verif.Props.HashModel

/-!
# When `HashableModel` raises, and exactly what `from_dict` gives (C166, C168, C169, C170)
-/

set_option linter.unusedSectionVars false
set_option linter.unusedSimpArgs false
set_option linter.unusedVariables false

namespace Verif.HashModel

open Verif.HashDict

variable {α β σ γ : Type} [DecidableEq α]

/-! ## Specification -/

/-- Somewhere in the value there is a set that has a model as element. -/
inductive ModelInSet (isModel : α → Bool) : Data α → Prop where
  | coll {c s} : ModelInSet isModel s → ModelInSet isModel (.coll c s)
  | head {h t} : ModelInSet isModel h → ModelInSet isModel (.lcons h t)
  | tail {h t} : ModelInSet isModel t → ModelInSet isModel (.lcons h t)
  | value {k v t} : ModelInSet isModel v → ModelInSet isModel (.dcons k v t)
  | entries {k v t} : ModelInSet isModel t → ModelInSet isModel (.dcons k v t)
  | here {a t} : isModel a = true → ModelInSet isModel (.scons a t)
  | elements {a t} : ModelInSet isModel t → ModelInSet isModel (.scons a t)

/-- Somewhere in the value there is something JSON cannot hold: a scalar or set element without JSON form, or a key that is no string. -/
inductive NoJson (A : Atoms α σ γ) : Data α → Prop where
  | atom {a} : A.json a = none → NoJson A (.atom a)
  | coll {c s} : NoJson A s → NoJson A (.coll c s)
  | head {h t} : NoJson A h → NoJson A (.lcons h t)
  | tail {h t} : NoJson A t → NoJson A (.lcons h t)
  | key {k v t} : A.key k = none → NoJson A (.dcons k v t)
  | value {k v t} : NoJson A v → NoJson A (.dcons k v t)
  | entries {k v t} : NoJson A t → NoJson A (.dcons k v t)
  | element {a t} : A.json a = none → NoJson A (.scons a t)
  | elements {a t} : NoJson A t → NoJson A (.scons a t)

/-! ## Lemmas -/

theorem dump_none (A : Atoms α σ γ) : ∀ v : Data α, dump A v = none ↔ ModelInSet A.isModel v := by
  intro v
  induction v with
  | atom a => simp only [dump, reduceCtorEq, false_iff]; intro h; cases h
  | coll c s ih =>
    have : dump A (.coll c s) = none ↔ dump A s = none := by cases c <;> simp [dump]
    rw [this, ih]
    exact ⟨.coll, fun h => by cases h; assumption⟩
  | nil => simp only [dump, reduceCtorEq, false_iff]; intro h; cases h
  | lcons h t ih1 ih2 =>
    simp only [dump]
    constructor
    · intro hn
      cases hh : dump A h with
      | none => exact .head (ih1.1 hh)
      | some h' => rw [hh] at hn; simp at hn; exact .tail (ih2.1 hn)
    · intro hm
      cases hm with
      | head hm => rw [ih1.2 hm]; rfl
      | tail hm => rw [ih2.2 hm]; cases dump A h <;> rfl
  | dcons k v t ih1 ih2 =>
    simp only [dump]
    constructor
    · intro hn
      cases hh : dump A v with
      | none => exact .value (ih1.1 hh)
      | some h' => rw [hh] at hn; simp at hn; exact .entries (ih2.1 hn)
    · intro hm
      cases hm with
      | value hm => rw [ih1.2 hm]; rfl
      | entries hm => rw [ih2.2 hm]; cases dump A v <;> rfl
  | scons a t ih =>
    simp only [dump]
    cases ha : A.isModel a with
    | true => simp only [if_true, true_iff]; exact .here ha
    | false =>
      simp only [Bool.false_eq_true, if_false, Option.map_eq_none_iff, ih]
      exact ⟨.elements, fun h => by cases h with
        | here h => rw [ha] at h; cases h
        | elements h => exact h⟩

/-- In a chain of fields, the set with the model is in the value of a field. -/
theorem modelInSet_chain {isModel : α → Bool} : ∀ x : Data α, IsChain x → (ModelInSet isModel x ↔ ∃ k v, Has k v x ∧ ModelInSet isModel v) := by
  intro x
  induction x with
  | nil => intro _; constructor
           · intro h; cases h
           · rintro ⟨k, v, h, -⟩; cases h
  | dcons k v t _ ih =>
    intro hc
    constructor
    · intro h
      cases h with
      | value h => exact ⟨k, v, .head, h⟩
      | entries h => obtain ⟨k', v', h1, h2⟩ := (ih hc).1 h; exact ⟨k', v', .tail h1, h2⟩
    · rintro ⟨k', v', h1, h2⟩
      cases h1 with
      | head => exact .value h2
      | tail h1 => exact .entries ((ih hc).2 ⟨k', v', h1, h2⟩)
  | _ => intro hc; exact hc.elim

theorem isChain_select (sel : Select α) : ∀ x : Data α, IsChain x → IsChain (select sel x) := by
  intro x
  induction x with
  | dcons k v t _ ih => intro hc; simp only [select]; split; exact ih hc; exact ih hc
  | nil => intro _; trivial
  | _ => intro hc; exact hc.elim

theorem toDictPy_error (A : Atoms α σ γ) (sel : Select α) (fields : Data α) (hc : IsChain fields) :
    (∀ e, toDictPy A sel fields = .error e → e = .typeError) ∧
    (toDictPy A sel fields = .error .typeError ↔ ∃ k v, Has k v fields ∧ Wanted sel k ∧ ModelInSet A.isModel v) := by
  have hiff : dump A (select sel fields) = none ↔ ∃ k v, Has k v fields ∧ Wanted sel k ∧ ModelInSet A.isModel v := by
    rw [dump_none, modelInSet_chain _ (isChain_select sel _ hc)]
    constructor
    · rintro ⟨k, v, h1, h2⟩; obtain ⟨a, b⟩ := (has_select sel k v fields).1 h1; exact ⟨k, v, a, b, h2⟩
    · rintro ⟨k, v, a, b, h2⟩; exact ⟨k, v, (has_select sel k v fields).2 ⟨a, b⟩, h2⟩
  rw [← hiff]
  unfold toDictPy
  cases dump A (select sel fields) <;> simp

theorem atomsJson_none (A : Atoms α σ γ) : ∀ s : Data α, IsElems s → (atomsJson A (elems s) = none ↔ NoJson A s) := by
  intro s
  induction s with
  | nil => intro _; simp only [elems, atomsJson, reduceCtorEq, false_iff]; intro h; cases h
  | scons a t ih =>
    intro he
    simp only [elems, atomsJson]
    constructor
    · intro hn
      cases ha : A.json a with
      | none => exact .element ha
      | some j => rw [ha] at hn; simp at hn; exact .elements ((ih he).1 hn)
    · intro hm
      cases hm with
      | element h => rw [h]; rfl
      | elements h => rw [(ih he).2 h]; cases A.json a <;> rfl
  | _ => intro h; exact h.elim

theorem toJson_none (A : Atoms α σ γ) (le : σ → σ → Bool) : ∀ x : Data α, Shaped x → (toJson A le x = none ↔ NoJson A x) := by
  intro x
  induction x with
  | atom a =>
    intro _
    simp only [toJson, Option.map_eq_none_iff]
    exact ⟨.atom, fun h => by cases h; assumption⟩
  | coll c s ih =>
    intro hs
    have key : toJson A le (.coll c s) = none ↔ NoJson A s := by
      cases c with
      | set => simp only [toJson, Option.map_eq_none_iff]; exact atomsJson_none A s hs
      | frozenset => simp only [toJson, Option.map_eq_none_iff]; exact atomsJson_none A s hs
      | dict => simp only [toJson, Option.map_eq_none_iff]; exact ih hs
      | model => simp only [toJson, Option.map_eq_none_iff]; exact ih hs
      | list => simp only [toJson, Option.map_eq_none_iff]; exact ih hs
      | tuple => simp only [toJson, Option.map_eq_none_iff]; exact ih hs
    rw [key]
    exact ⟨.coll, fun h => by cases h; assumption⟩
  | nil => intro _; simp only [toJson, reduceCtorEq, false_iff]; intro h; cases h
  | lcons h t ih1 ih2 =>
    intro hs
    simp only [toJson]
    constructor
    · intro hn
      cases hh : toJson A le h with
      | none => exact .head ((ih1 hs.1).1 hh)
      | some h' => rw [hh] at hn; simp at hn; exact .tail ((ih2 hs.2).1 hn)
    · intro hm
      cases hm with
      | head hm => rw [(ih1 hs.1).2 hm]; rfl
      | tail hm => rw [(ih2 hs.2).2 hm]; cases toJson A le h <;> rfl
  | dcons k v t ih1 ih2 =>
    intro hs
    simp only [toJson]
    constructor
    · intro hn
      cases hk : A.key k with
      | none => exact .key hk
      | some k' =>
        rw [hk] at hn
        cases hh : toJson A le v with
        | none => exact .value ((ih1 hs.1).1 hh)
        | some h' => rw [hh] at hn; simp at hn; exact .entries ((ih2 hs.2).1 hn)
    · intro hm
      cases hm with
      | key h => rw [h]; rfl
      | value hm => rw [(ih1 hs.1).2 hm]; cases A.key k <;> rfl
      | entries hm => rw [(ih2 hs.2).2 hm]; cases A.key k <;> cases toJson A le v <;> rfl
  | scons a t _ => intro hs; exact hs.elim

theorem isElems_dumped {isModel : α → Bool} {x y : Data α} (h : Dumped isModel x y) : IsElems x → IsElems y := by
  induction h with
  | nil => intro _; trivial
  | scons _ _ ih => intro hs; exact ih hs
  | _ => intro hs; exact hs.elim

theorem shaped_dumped {isModel : α → Bool} {x y : Data α} (h : Dumped isModel x y) : Shaped x → Shaped y := by
  induction h with
  | @coll c s t hc hd ih =>
    intro hs
    cases c with
    | set => exact isElems_dumped hd hs
    | frozenset => exact isElems_dumped hd hs
    | dict => exact ih hs
    | model => exact ih hs
    | list => exact ih hs
    | tuple => exact ih hs
  | model _ ih => intro hs; exact ih hs
  | lcons _ _ ih1 ih2 => intro hs; exact ⟨ih1 hs.1, ih2 hs.2⟩
  | dcons _ _ ih1 ih2 => intro hs; exact ⟨ih1 hs.1, ih2 hs.2⟩
  | scons _ _ _ => intro hs; exact hs.elim
  | _ => intro _; trivial

theorem shaped_dropSent (A : Atoms α σ γ) : ∀ x : Data α, Shaped x → Shaped (dropSent A x) := by
  intro x
  induction x with
  | dcons k v t _ ih =>
    intro hs
    simp only [dropSent]
    split
    · exact ih hs.2
    · exact ⟨hs.1, ih hs.2⟩
  | _ => intro hs; exact hs

theorem shaped_select (sel : Select α) : ∀ x : Data α, Shaped x → Shaped (select sel x) := by
  intro x
  induction x with
  | dcons k v t _ ih =>
    intro hs
    simp only [select]
    split
    · exact ⟨hs.1, ih hs.2⟩
    · exact ih hs.2
  | _ => intro hs; exact hs

/-! ## C166, C168: when `to_dict` and `to_json` raise -/

/-- C166: a mode other than `python` and `json` is a `ValueError`. In python mode the only exception is `TypeError`, raised exactly when one of the fields asked for holds a set with a model in it. -/
theorem C166_raises (A : Atoms α σ γ) (L : Loads α σ γ) (le : σ → σ → Bool) (sel : Select α) (fields : Data α) (hc : IsChain fields) :
    toDict A L le .other sel fields = .error .valueError ∧
    (∀ e, toDict A L le .python sel fields = .error e → e = .typeError) ∧
    (toDict A L le .python sel fields = .error .typeError ↔ ∃ k v, Has k v fields ∧ Wanted sel k ∧ ModelInSet A.isModel v) := by
  obtain ⟨h1, h2⟩ := toDictPy_error A sel fields hc
  refine ⟨rfl, ?_, ?_⟩
  · intro e he
    apply h1
    simp only [toDict] at he
    cases ht : toDictPy A sel fields with
    | error e' => rw [ht] at he; cases he; rfl
    | ok d => rw [ht] at he; cases he
  · rw [← h2]
    simp only [toDict]
    cases toDictPy A sel fields <;> simp [Except.map]

/-- C168: `to_json` raises only `TypeError`, and exactly when the python-mode dict cannot be made or holds something JSON cannot hold; json mode of `to_dict` likewise (with all fields). -/
theorem C168_raises (A : Atoms α σ γ) (L : Loads α σ γ) (le : σ → σ → Bool) (sel : Select α) (fields : Data α) (hs : Shaped fields) (hc : IsChain fields) :
    (∀ e, modelJson A le sel fields = .error e → e = .typeError) ∧
    (modelJson A le sel fields = .error .typeError ↔
      toDict A L le .python sel fields = .error .typeError ∨ ∃ d, toDict A L le .python sel fields = .ok d ∧ NoJson A d) ∧
    (toDict A L le .json sel fields = .error .typeError ↔ modelJson A le {} fields = .error .typeError) ∧
    (∀ e, toDict A L le .json sel fields = .error e → e = .typeError) := by
  have main : ∀ sel : Select α, (∀ e, modelJson A le sel fields = .error e → e = .typeError) ∧
      (modelJson A le sel fields = .error .typeError ↔
        toDict A L le .python sel fields = .error .typeError ∨ ∃ d, toDict A L le .python sel fields = .ok d ∧ NoJson A d) := by
    intro sel
    simp only [toDict, modelJson]
    cases ht : toDictPy A sel fields with
    | error e =>
      have := (toDictPy_error A sel fields hc).1 e ht
      subst this
      simp [Except.map]
    | ok d =>
      have hd : Shaped (.coll .dict d) := by
        unfold toDictPy at ht
        cases hu : dump A (select sel fields) with
        | none => rw [hu] at ht; cases ht
        | some u =>
          rw [hu] at ht; cases ht
          exact shaped_dropSent A u (shaped_dumped ((dump_iff A _ _).1 hu) (shaped_select sel _ hs))
      have := toJson_none A le (.coll .dict d) hd
      simp only
      cases hj : toJson A le (.coll .dict d) with
      | none =>
        simp only [Except.error.injEq, Except.map, Except.ok.injEq, exists_eq_left', reduceCtorEq, false_or, true_iff]
        exact ⟨fun e he => he.symm, this.1 hj⟩
      | some j =>
        have hn : ¬ NoJson A (.coll .dict d) := fun h => by rw [this.2 h] at hj; cases hj
        simp [Except.map, hn]
  refine ⟨(main sel).1, (main sel).2, ?_, ?_⟩
  · simp only [toDict]
    cases modelJson A le {} fields <;> simp [Except.map]
  · intro e he
    apply (main {}).1
    simp only [toDict] at he
    cases ht : modelJson A le {} fields with
    | error e' => rw [ht] at he; cases he; rfl
    | ok d => rw [ht] at he; cases he

/-- Non-vacuity: a field with a set of models raises, and does not when it is left out. -/
example : toDict demoAtoms demoLoads natLe .python {} (.dcons (.str 1) (.coll .set (.scons (.model 4) .nil)) .nil) = .error .typeError ∧
    toDict demoAtoms demoLoads natLe .python { excl := [.str 1] } (.dcons (.str 1) (.coll .set (.scons (.model 4) .nil)) .nil) = .ok (.coll .dict .nil) ∧
    modelJson demoAtoms natLe {} (.dcons (.num 1) (.atom (.num 2)) .nil) = .error .typeError := by decide

/-- C170: hashing raises only `TypeError`, and exactly when a field holds a set with a model in it. -/
theorem C170_raises (A : Atoms α σ γ) (O : Ops α β σ) (hash : Rep β σ → Int) (fields : Data α) (hc : IsChain fields) :
    (∀ e, hashModel A O hash fields = .error e → e = .typeError) ∧
    (hashModel A O hash fields = .error .typeError ↔ ∃ k v, Has k v fields ∧ ModelInSet A.isModel v) := by
  obtain ⟨h1, h2⟩ := toDictPy_error A {} fields hc
  have hw : ∀ k, Wanted ({} : Select α) k := fun k => ⟨(by intro l hl; cases hl), (by simp)⟩
  simp only [hw, true_and] at h2
  simp only [hashModel]
  cases ht : toDictPy A {} fields with
  | error e =>
    have he := h1 e ht; subst he
    rw [ht] at h2
    exact ⟨fun e he => by cases he; rfl, by simpa using h2⟩
  | ok d =>
    rw [ht] at h2
    simpa using h2

/-! ## C169: exactly what `from_dict` gives -/

/-- The value a field gets from the given data: the validated one if it is given, else the default. -/
def Gets (C : Class α) (e : Data α) (f : α × Option (Data α)) (v : Data α) : Prop :=
  (∃ w, Has f.1 w e ∧ C.validate f.1 w = some v) ∨ ((∀ w, ¬ Has f.1 w e) ∧ f.2 = some v)

theorem gets_iff (C : Class α) (e : Data α) (hn : (keys e).Nodup) (f : α × Option (Data α)) (v : Data α) :
    fieldValue C e f = some v ↔ Gets C e f v := by
  unfold fieldValue Gets
  cases hl : lookup f.1 e with
  | none =>
    have : ∀ w, ¬ Has f.1 w e := fun w hw => by rw [(lookup_has e f.1 w hn).2 hw] at hl; cases hl
    simp [this]
  | some w =>
    have hw := (lookup_has e f.1 w hn).1 hl
    constructor
    · intro h; exact .inl ⟨w, hw, h⟩
    · rintro (⟨w', hw', h⟩ | ⟨h, -⟩)
      · rw [(lookup_has e f.1 w' hn).2 hw'] at hl; cases hl; exact h
      · exact absurd hw (h w)

theorem validateFields_iff (C : Class α) (e : Data α) (hn : (keys e).Nodup) : ∀ (fs : List (α × Option (Data α))) (r : Data α),
    validateFields C e fs = some r ↔
      IsChain r ∧ keys r = fs.map Prod.fst ∧ ∃ vs : List (Data α), vs.length = fs.length ∧
        (∀ (i : Nat) f v, fs[i]? = some f → vs[i]? = some v → Gets C e f v) ∧ r = (fs.zip vs).foldr (fun p t => .dcons p.1.1 p.2 t) .nil := by
  intro fs
  induction fs with
  | nil =>
    intro r
    simp only [validateFields, Option.some.injEq]
    constructor
    · rintro rfl; exact ⟨trivial, rfl, [], rfl, (by intro i f v h; simp at h), rfl⟩
    · rintro ⟨-, -, vs, -, -, rfl⟩; rfl
  | cons f fs ih =>
    intro r
    simp only [validateFields, Option.bind_eq_some_iff, Option.map_eq_some_iff]
    constructor
    · rintro ⟨v, hv, t, ht, rfl⟩
      obtain ⟨h1, h2, vs, h3, h4, h5⟩ := (ih t).1 ht
      refine ⟨h1, by simp [keys, h2], v :: vs, by simp [h3], ?_, by simp [← h5]⟩
      intro i g w hg hw
      cases i with
      | zero => simp only [List.getElem?_cons_zero, Option.some.injEq] at hg hw; subst hg; subst hw; exact (gets_iff C e hn _ _).1 hv
      | succ i => simp only [List.getElem?_cons_succ] at hg hw; exact h4 i g w hg hw
    · rintro ⟨h1, h2, vs, h3, h4, h5⟩
      cases vs with
      | nil => simp at h3
      | cons v vs =>
        simp only [List.zip_cons_cons, List.foldr_cons] at h5
        subst h5
        refine ⟨v, (gets_iff C e hn _ _).2 (h4 0 f v rfl rfl), (fs.zip vs).foldr (fun (p : (α × Option (Data α)) × Data α) t => .dcons p.1.1 p.2 t) .nil, (ih _).2 ⟨h1, ?_, vs, by simpa using h3, ?_, rfl⟩, rfl⟩
        · simpa [keys] using h2
        · intro i g w hg hw; exact h4 (i + 1) g w (by simpa using hg) (by simpa using hw)

theorem keysIn_false (ks : List α) : ∀ x : Data α, keysIn ks x = true ↔ ∀ k ∈ keys x, k ∈ ks := by
  intro x
  induction x with
  | dcons k v t _ ih => simp [keysIn, keys, ih]
  | _ => simp [keysIn, keys]

/-- C169, exact: `from_dict` accepts exactly the dicts whose keys are all fields and that give every field a value (a valid one, or a default when it is not given); the instance then has these values in the order of declaration. Everything else is a `ValidationError`. -/
theorem C169_exact_partial (C : Class α) (d : Data α) (hn : ∀ e, d = .coll .dict e → (keys e).Nodup) :
    (∀ r, fromDict C d = .ok r ↔ ∃ e, d = .coll .dict e ∧ (∀ k ∈ keys e, k ∈ C.fields.map Prod.fst) ∧
      ∃ vs : List (Data α), vs.length = C.fields.length ∧ (∀ (i : Nat) f v, C.fields[i]? = some f → vs[i]? = some v → Gets C e f v) ∧
        r = (C.fields.zip vs).foldr (fun p t => .dcons p.1.1 p.2 t) .nil) ∧
    (∀ x, fromDict C d = .error x → x = .validation) := by
  have hbad : (∀ e, d ≠ .coll .dict e) → fromDict C d = .error .validation := by
    intro h
    cases d with
    | coll c s => cases c <;> first | rfl | exact absurd rfl (h s)
    | _ => rfl
  by_cases hd : ∃ e, d = .coll .dict e
  · obtain ⟨e, rfl⟩ := hd
    have hne := hn e rfl
    simp only [fromDict]
    by_cases hk : keysIn (C.fields.map Prod.fst) e = true
    · rw [if_pos hk]
      have hk' := (keysIn_false _ e).1 hk
      cases hv : validateFields C e C.fields with
      | none =>
        refine ⟨?_, fun x hx => by cases hx; rfl⟩
        intro r
        simp only [reduceCtorEq, false_iff]
        rintro ⟨e', he', -, vs, h1, h2, rfl⟩
        cases he'
        have := (validateFields_iff C e hne C.fields _).2 ⟨?_, ?_, vs, h1, h2, rfl⟩
        · rw [this] at hv; cases hv
        · clear h2 hv hk hk' hn hbad
          generalize C.fields = fs at h1 ⊢
          induction fs generalizing vs with
          | nil => trivial
          | cons f fs ih => cases vs with
            | nil => simp at h1
            | cons v vs => exact ih vs (by simpa using h1)
        · clear h2 hv hk hk' hn hbad
          generalize C.fields = fs at h1 ⊢
          induction fs generalizing vs with
          | nil => rfl
          | cons f fs ih => cases vs with
            | nil => simp at h1
            | cons v vs => simp only [List.zip_cons_cons, List.foldr_cons, keys, List.map_cons]; rw [ih vs (by simpa using h1)]
      | some r' =>
        refine ⟨?_, fun x hx => by cases hx⟩
        obtain ⟨h1, h2, vs, h3, h4, h5⟩ := (validateFields_iff C e hne C.fields r').1 hv
        intro r
        constructor
        · intro h; cases h; exact ⟨e, rfl, hk', vs, h3, h4, h5⟩
        · rintro ⟨e', he', -, ws, g1, g2, rfl⟩
          cases he'
          have : vs = ws := by
            apply List.ext_getElem?
            intro i
            by_cases hi : i < C.fields.length
            · have e1 : i < vs.length := by omega
              have e2 : i < ws.length := by omega
              have a := (gets_iff C e hne _ _).2 (h4 i _ _ (List.getElem?_eq_getElem hi) (List.getElem?_eq_getElem e1))
              have b := (gets_iff C e hne _ _).2 (g2 i _ _ (List.getElem?_eq_getElem hi) (List.getElem?_eq_getElem e2))
              rw [a] at b
              rw [List.getElem?_eq_getElem e1, List.getElem?_eq_getElem e2]; exact b
            · rw [List.getElem?_eq_none (by omega), List.getElem?_eq_none (by omega)]
          rw [h5, this]
    · rw [if_neg hk]
      refine ⟨?_, fun x hx => by cases hx; rfl⟩
      intro r
      simp only [reduceCtorEq, false_iff]
      rintro ⟨e', he', h, -⟩
      cases he'
      exact hk ((keysIn_false _ e).2 h)
  · rw [hbad (fun e he => hd ⟨e, he⟩)]
    refine ⟨?_, fun x hx => by cases hx; rfl⟩
    intro r
    simp only [reduceCtorEq, false_iff]
    rintro ⟨e, he, -⟩
    exact hd ⟨e, he⟩

/-- Non-vacuity: a given value and a default. -/
example : fromDict (α := At) ⟨[(.str 1, none), (.str 2, some (.atom (.num 3)))], fun _ v => some v⟩ (.coll .dict (.dcons (.str 1) (.atom (.num 9)) .nil)) =
    .ok (.dcons (.str 1) (.atom (.num 9)) (.dcons (.str 2) (.atom (.num 3)) .nil)) := by decide

end Verif.HashModel
