import Verif.Model.Embedding

set_option linter.unusedSectionVars false
set_option linter.unusedSimpArgs false
set_option linter.unusedVariables false
set_option exponentiation.threshold 2000

/-!
# C190-C194: embeddings and the content serializer of nodes
-/

namespace Verif.Embedding

variable {τ : Type}

/-! ### Specification -/

/-- `y` is the float with the value of the entry `x`. -/
def IsFloatOf (L : Lib τ) : Scalar → Flt → Prop
  | .bool true, y => y = .fin 1
  | .bool false, y => y = .fin 0
  | .int n, y => ∃ q, L.ofInt n = some q ∧ y = .fin q
  | .float x, y => y = x
  | .other, _ => False

/-- `ys` lists the float values of the entries of `xs`, in order. -/
inductive FloatsOf (L : Lib τ) : List Scalar → List Flt → Prop where
  | nil : FloatsOf L [] []
  | cons {x y xs ys} : IsFloatOf L x y → FloatsOf L xs ys → FloatsOf L (x :: xs) (y :: ys)

/-- The list denoted by an argument: a list, or a text that JSON reads as a list. -/
def Denotes (L : Lib τ) : Val τ → List Scalar → Prop
  | .list xs, ys => xs = ys
  | .text t, ys => L.loads t = some (.list ys)
  | _, _ => False

/-- What the JSON libraries guarantee: a list of finite floats written by `orjson.dumps` or `json.dumps` is read back by
`orjson.loads` as the same list of floats. -/
structure Faithful (L : Lib τ) : Prop where
  orjson : ∀ qs : List Rat, L.loads (L.orjsonDumps (qs.map .fin)) = some (.list (qs.map (fun q => .float (.fin q))))
  json : ∀ qs : List Rat, L.loads (L.jsonDumps (qs.map .fin)) = some (.list (qs.map (fun q => .float (.fin q))))

/-! ### Lemmas -/

theorem toFloat_iff (L : Lib τ) (x : Scalar) (y : Flt) : toFloat L x = .ok y ↔ IsFloatOf L x y := by
  cases x with
  | bool b => cases b <;> simp [toFloat, IsFloatOf, eq_comm]
  | int n =>
    simp only [toFloat, IsFloatOf, ofIntE]
    cases h : L.ofInt n with
    | none => simp
    | some q => simp [eq_comm]
  | float x => simp [toFloat, IsFloatOf, eq_comm]
  | other => simp [toFloat, IsFloatOf]

theorem toFloats_iff (L : Lib τ) (xs : List Scalar) (ys : List Flt) : toFloats L xs = .ok ys ↔ FloatsOf L xs ys := by
  induction xs generalizing ys with
  | nil =>
    constructor
    · intro h
      simp only [toFloats, Except.ok.injEq] at h
      rw [← h]; exact .nil
    · intro h; cases h; rfl
  | cons x xs ih =>
    constructor
    · intro h
      simp only [toFloats] at h
      cases hx : toFloat L x with
      | error e => rw [hx] at h; cases h
      | ok y =>
        rw [hx] at h
        cases ht : toFloats L xs with
        | error e => simp only [ht, consE] at h; cases h
        | ok zs =>
          simp only [ht, consE, Except.ok.injEq] at h
          rw [← h]
          exact .cons ((toFloat_iff L x y).1 hx) ((ih zs).1 ht)
    · intro h
      cases h with
      | cons hx ht =>
        simp only [toFloats, (toFloat_iff L x _).2 hx, (ih _).2 ht, consE]

theorem FloatsOf.numbers {L : Lib τ} {xs : List Scalar} {ys : List Flt} (h : FloatsOf L xs ys) : xs.all Scalar.isNumber = true := by
  induction h with
  | nil => rfl
  | cons hx _ ih =>
    rename_i x y xs ys _
    cases x <;> simp_all [Scalar.isNumber, IsFloatOf]

theorem validateList_iff (L : Lib τ) (v : Val τ) (r : Option (List Flt)) :
    validateList L v = .ok r ↔ ∃ xs ys, v = .list xs ∧ xs ≠ [] ∧ FloatsOf L xs ys ∧ r = some ys := by
  cases v with
  | none => simp [validateList]
  | text t => simp [validateList]
  | other => simp [validateList]
  | list xs =>
    cases xs with
    | nil => simp [validateList]
    | cons x xs =>
      constructor
      · intro h
        simp only [validateList] at h
        split at h
        · cases ht : toFloats L (x :: xs) with
          | error e => rw [ht] at h; cases h
          | ok ys =>
            rw [ht] at h
            simp only [Except.ok.injEq] at h
            exact ⟨_, ys, rfl, by simp, (toFloats_iff L _ _).1 ht, h.symm⟩
        · cases h
      · rintro ⟨zs, ys, hz, _, hf, hr⟩
        cases hz
        simp only [validateList]
        rw [if_pos hf.numbers, (toFloats_iff L _ _).2 hf, hr]

theorem pydantic_ok {α : Type} (r : Except Exc α) (x : α) : pydantic r = .ok x ↔ r = .ok x := by
  cases r with
  | ok a => simp [pydantic]
  | error e => cases e <;> simp [pydantic]

/-! ### C190 -/

/-- C190: a node's embedding is None exactly if None is given; otherwise it is the non-empty list of the float values of the entries of
the given list (or of the list its JSON text denotes), in order; every such list is accepted, and nothing else is. -/
theorem C190_embedding_validation (L : Lib τ) (v : Val τ) (r : Option (List Flt)) :
    accept L v = .ok r ↔
      (v = .none ∧ r = none) ∨ ∃ xs ys, Denotes L v xs ∧ xs ≠ [] ∧ FloatsOf L xs ys ∧ r = some ys := by
  rw [accept, pydantic_ok]
  cases v with
  | none => simp [validate, Denotes, eq_comm]
  | other => simp [validate, validateList_iff, Denotes]
  | list xs =>
    have : validate L (.list xs) = validateList L (.list xs) := by simp only [validate]
    rw [this, validateList_iff]
    simp only [Denotes, Val.list.injEq]
    constructor
    · rintro ⟨zs, ys, h⟩; exact .inr ⟨zs, ys, h⟩
    · rintro (⟨h, _⟩ | ⟨zs, ys, h⟩)
      · cases h
      · exact ⟨zs, ys, h⟩
  | text t =>
    simp only [validate]
    cases hl : L.loads t with
    | none => simp [Denotes, hl]
    | some w =>
      simp only [validateList_iff, Denotes, hl, Option.some.injEq]
      constructor
      · rintro ⟨zs, ys, h⟩; exact .inr ⟨zs, ys, h⟩
      · rintro (⟨h, _⟩ | ⟨zs, ys, h⟩)
        · cases h
        · exact ⟨zs, ys, h⟩

/-- A library with texts that are the written lists themselves, marked with the writer; ints beyond 2^1024 do not fit a float. -/
def sampleLib : Lib (Bool × List Flt) where
  ofInt n := if n.natAbs < 2 ^ 1024 then some n else none
  loads t := if t.1 || t.2.all (fun x => match x with | .fin _ => true | _ => false) then some (.list (t.2.map (fun x => scalarViaJson (.float x)))) else none
  orjsonDumps xs := (true, xs)
  jsonDumps xs := (false, xs)

theorem sampleLib_faithful : Faithful sampleLib where
  orjson qs := by simp [sampleLib, scalarViaJson, Function.comp_def]
  json qs := by simp [sampleLib, scalarViaJson, Function.comp_def]

example : accept sampleLib (.list [.int 1, .bool true, .float (.fin (1/2))]) = .ok (some [.fin 1, .fin 1, .fin (1/2)]) := by
  decide +kernel
example : accept sampleLib (.text (true, [.fin 4, .fin 5])) = .ok (some [.fin 4, .fin 5]) := by decide +kernel
example : accept sampleLib (.list []) = .error .validation := by decide +kernel

/-! ### C191 -/

/-- Every int of the argument fits a float. -/
def IntsFit (L : Lib τ) (v : Val τ) : Prop := ∀ xs, Denotes L v xs → ∀ n, .int n ∈ xs → (L.ofInt n).isSome

theorem toFloats_total (L : Lib τ) (xs : List Scalar) (hn : xs.all Scalar.isNumber = true) (hf : ∀ n, .int n ∈ xs → (L.ofInt n).isSome) :
    ∃ ys, toFloats L xs = .ok ys := by
  induction xs with
  | nil => exact ⟨[], rfl⟩
  | cons x xs ih =>
    simp only [List.all_cons, Bool.and_eq_true] at hn
    rcases ih hn.2 (fun n hm => hf n (List.mem_cons_of_mem _ hm)) with ⟨ys, hys⟩
    have : ∃ y, toFloat L x = .ok y := by
      cases x with
      | bool b => exact ⟨_, rfl⟩
      | int n =>
        have := hf n (List.mem_cons_self)
        cases h : L.ofInt n with
        | none => rw [h] at this; cases this
        | some q => exact ⟨.fin q, by simp only [toFloat, ofIntE, h]⟩
      | float x => exact ⟨_, rfl⟩
      | other => simp [Scalar.isNumber] at hn
    rcases this with ⟨y, hy⟩
    exact ⟨y :: ys, by simp only [toFloats, hy, hys, consE]⟩

theorem validateList_total (L : Lib τ) (v : Val τ) (hf : ∀ xs, v = .list xs → ∀ n, .int n ∈ xs → (L.ofInt n).isSome) (e : Exc)
    (h : validateList L v = .error e) : e = .valueError := by
  cases v with
  | none => simp only [validateList] at h; cases h; rfl
  | text t => simp only [validateList] at h; cases h; rfl
  | other => simp only [validateList] at h; cases h; rfl
  | list xs =>
    cases xs with
    | nil => simp only [validateList] at h; cases h; rfl
    | cons x xs =>
      simp only [validateList] at h
      split at h
      · rename_i hn
        rcases toFloats_total L _ hn (hf _ rfl) with ⟨ys, hys⟩
        rw [hys] at h; cases h
      · cases h; rfl

/-- C191 with the restriction that the ints given fit a float: a value that is not accepted is reported as a `ValidationError`. -/
theorem C191_rejection_partial (L : Lib τ) (v : Val τ) (hf : IntsFit L v) (e : Exc) (h : accept L v = .error e) : e = .validation := by
  have key : ∀ w : Val τ, (∀ xs, w = .list xs → ∀ n, .int n ∈ xs → (L.ofInt n).isSome) → pydantic (validateList L w) = .error e →
      e = .validation := by
    intro w hw hp
    cases hv : validateList L w with
    | ok r => rw [hv] at hp; simp [pydantic] at hp
    | error e' =>
      rw [hv, validateList_total L w hw e' hv] at hp
      simp only [pydantic, Except.error.injEq] at hp
      exact hp.symm
  cases v with
  | none => simp [accept, validate, pydantic] at h
  | list xs => exact key (.list xs) (fun ys hy => hf ys (by cases hy; rfl)) (by simpa only [accept, validate] using h)
  | other => exact key .other (fun ys hy => by cases hy) (by simpa only [accept, validate] using h)
  | text t =>
    simp only [accept, validate] at h
    cases hl : L.loads t with
    | none => rw [hl] at h; simp only [pydantic, Except.error.injEq] at h; exact h.symm
    | some w =>
      rw [hl] at h
      exact key w (fun xs hx => hf xs (by simp only [Denotes, hl, hx])) h

/-- C191 is refuted: an int too large for a float makes the constructor raise `OverflowError`, which is no `ValidationError`. -/
theorem C191_overflow_violation : accept sampleLib (.list [.int (2 ^ 1024)]) = .error .overflowError := by decide +kernel

example : IntsFit sampleLib (.list [.int 3, .other]) := by
  intro xs hd n hn
  simp only [Denotes] at hd
  rw [← hd] at hn
  simp at hn
  rw [hn]; decide +kernel
example : accept sampleLib (.list [.int 3, .other]) = .error .validation := by decide +kernel

/-! ### C192 -/

/-- All entries are finite. -/
def Finite (xs : List Flt) : Prop := ∃ qs : List Rat, xs = qs.map .fin

theorem floatsOf_refl (L : Lib τ) (xs : List Flt) : FloatsOf L (xs.map .float) xs := by
  induction xs with
  | nil => exact .nil
  | cons x xs ih => exact .cons rfl ih

theorem setFormat_ok {m : Mode} {f : Option Fmt} {c : Ctx} (h : c ≠ .none) : ∃ c', (setFormat m f c).1 = .ok c' := by
  cases m <;> cases f <;> cases c <;> simp_all [setFormat]

theorem accept_list (L : Lib τ) (xs : List Flt) (h : xs ≠ []) : accept L (.list (xs.map .float)) = .ok (some xs) := by
  rw [C190_embedding_validation]
  exact .inr ⟨xs.map .float, xs, rfl, by simpa using h, floatsOf_refl L xs, rfl⟩

theorem viaJson_finite (qs : List Rat) :
    (viaJson (.list ((qs.map Flt.fin).map Scalar.float)) : Val τ) = .list ((qs.map Flt.fin).map Scalar.float) := by
  simp [viaJson, scalarViaJson, Function.comp_def]

/-- C192: whatever mode, embedding format and context `to_dict` is called with, the embedding it writes is read back by `from_dict` as
the same embedding: None, or a list of finite floats. -/
theorem C192_embedding_round_trip (L : Lib τ) (hL : Faithful L) (m : Mode) (f : Option Fmt) (c : Ctx) (hc : c ≠ .none)
    (e : Option (List Flt)) (he : ∀ xs, e = some xs → xs ≠ [] ∧ Finite xs) :
    ∃ v, (toDict L m f c e).1 = .ok v ∧ accept L v = .ok e := by
  rcases setFormat_ok (m := m) (f := f) hc with ⟨c', hc'⟩
  have hd : (toDict L m f c e).1 = .ok (inMode m (serialize L c' e)) := by
    simp only [toDict]
    rcases hs : setFormat m f c with ⟨r, after⟩
    rw [hs] at hc'
    simp only at hc'
    subst hc'
    rfl
  refine ⟨_, hd, ?_⟩
  cases e with
  | none => cases m <;> simp [inMode, viaJson, serialize, accept, validate, pydantic]
  | some xs =>
    rcases he xs rfl with ⟨hne, qs, hq⟩
    have hlist : accept L (inMode m (.list (xs.map .float))) = .ok (some xs) := by
      cases m
      · exact accept_list L xs hne
      all_goals
        simp only [inMode]
        rw [hq, viaJson_finite, ← hq]
        exact accept_list L xs hne
    have htext : ∀ t, L.loads t = some (.list (qs.map (fun q => .float (.fin q)))) → accept L (inMode m (.text t)) = .ok (some xs) := by
      intro t ht
      have hm : inMode m (.text t : Val τ) = .text t := by cases m <;> rfl
      rw [hm, C190_embedding_validation]
      refine .inr ⟨qs.map (fun q => .float (.fin q)), xs, ht, ?_, ?_, rfl⟩
      · intro h0
        apply hne
        rw [hq]
        simpa using h0
      · have := floatsOf_refl L xs
        rw [hq, List.map_map] at this
        rw [hq]
        exact this
    simp only [serialize]
    cases hf : c'.format with
    | none => exact hlist
    | some g =>
      cases g with
      | list => exact hlist
      | pgvector => exact htext _ (by rw [hq]; exact hL.orjson qs)
      | jsonb => exact htext _ (by rw [hq]; exact hL.json qs)

example : (toDict sampleLib .db (some .pgvector) .absent (some [.fin 1, .fin (1/2)])).1 = .ok (.text (true, [.fin 1, .fin (1/2)])) := by
  decide +kernel
example : accept sampleLib (.text (true, [.fin 1, .fin (1/2)])) = .ok (some [.fin 1, .fin (1/2)]) := by decide +kernel

/-- The restriction to finite floats in C192 is needed: a node accepts nan in its embedding, but what `to_dict(mode="json")` writes for
it is rejected. -/
theorem C192_nan_limit :
    accept sampleLib (.list [.float .nan]) = .ok (some [.nan]) ∧
    ∃ v, (toDict sampleLib .json none .absent (some [.nan])).1 = .ok v ∧ accept sampleLib v = .error .validation := by
  refine ⟨by decide +kernel, _, rfl, by decide +kernel⟩

/-- The format that applies: outside python mode the one asked for, else the one in the context. -/
def Applies (m : Mode) (f : Option Fmt) (c : Ctx) (r : Option Fmt) : Prop :=
  (m ≠ .python ∧ f ≠ none ∧ r = f) ∨ ((m = .python ∨ f = none) ∧ ∃ g, c = .dict g ∧ r = g) ∨ ((m = .python ∨ f = none) ∧ (c = .absent ∨ c = .none) ∧ r = none)

/-- C192: what is written for an embedding of finite floats: the list itself, or its text in the library that belongs to the format. -/
theorem C192_form (L : Lib τ) (m : Mode) (f : Option Fmt) (c : Ctx) (v : Val τ) (xs : List Flt) (hx : Finite xs) (r : Option Fmt) (hr : Applies m f c r)
    (h : (toDict L m f c (some xs)).1 = .ok v) :
    (r = some .pgvector → v = .text (L.orjsonDumps xs)) ∧ (r = some .jsonb → v = .text (L.jsonDumps xs)) ∧
    (r = some .list ∨ r = none → v = .list (xs.map .float)) := by
  have hlist : viaJson (τ := τ) (.list (xs.map .float)) = .list (xs.map .float) := by
    rcases hx with ⟨qs, rfl⟩
    simp [viaJson, scalarViaJson, Function.comp_def]
  have hin : ∀ g, inMode m (writeAs L xs g) = writeAs L xs g := by
    intro g
    cases m with
    | python => rfl
    | json =>
      cases g with
      | none => exact hlist
      | some g => cases g <;> first | rfl | exact hlist
    | db =>
      cases g with
      | none => exact hlist
      | some g => cases g <;> first | rfl | exact hlist
  have key : v = writeAs L xs r := by
    simp only [toDict] at h
    rcases hr with ⟨hm, hf, rfl⟩ | ⟨hmf, g, rfl, rfl⟩ | ⟨hmf, hc, rfl⟩
    · cases m with
      | python => exact absurd rfl hm
      | json =>
        cases r with
        | none => exact absurd rfl hf
        | some r => cases c <;> simp only [setFormat] at h <;> cases h <;> exact hin _
      | db =>
        cases r with
        | none => exact absurd rfl hf
        | some r => cases c <;> simp only [setFormat] at h <;> cases h <;> exact hin _
    · have hs : setFormat m f (.dict r) = (.ok (.dict r), .dict r) := by
        rcases hmf with rfl | rfl
        · rfl
        · cases m <;> rfl
      rw [hs] at h
      cases h
      exact hin _
    · have hs : setFormat m f c = (.ok c, c) := by
        rcases hmf with rfl | rfl
        · rfl
        · cases m <;> rfl
      rw [hs] at h
      rcases hc with rfl | rfl <;> cases h <;> exact hin none
  subst key
  refine ⟨?_, ?_, ?_⟩
  · rintro rfl; rfl
  · rintro rfl; rfl
  · rintro (rfl | rfl) <;> rfl

/-- C192: no embedding is written as None, whatever the format. -/
theorem C192_absent (L : Lib τ) (m : Mode) (f : Option Fmt) (c : Ctx) (v : Val τ) (h : (toDict L m f c none).1 = .ok v) : v = .none := by
  simp only [toDict] at h
  split at h
  · cases h; cases m <;> rfl
  · cases h

example : Applies .db (some .pgvector) .absent (some .pgvector) := .inl ⟨by decide, by decide, rfl⟩

/-! ### C193 -/

/-- C193 restricted to calls without embedding format, in python mode, or without a context: the caller's context is unchanged. -/
theorem C193_context_unchanged_partial (L : Lib τ) (m : Mode) (f : Option Fmt) (c : Ctx) (e : Option (List Flt))
    (h : m = .python ∨ f = none ∨ c = .absent) : (toDict L m f c e).2 = c ∧ ∃ v, (toDict L m f c e).1 = .ok v := by
  rcases h with h | h | h <;> subst h
  · exact ⟨rfl, _, rfl⟩
  · cases m <;> exact ⟨rfl, _, rfl⟩
  · cases m <;> cases f <;> exact ⟨rfl, _, rfl⟩

/-- C193 exactly: the call succeeds and leaves the context alone in python mode, without a format, without a context, or when the context already holds that format. -/
theorem C193_exact_partial (L : Lib τ) (m : Mode) (f : Option Fmt) (c : Ctx) (e : Option (List Flt)) :
    ((toDict L m f c e).2 = c ∧ ∃ v, (toDict L m f c e).1 = .ok v) ↔ m = .python ∨ f = none ∨ c = .absent ∨ c = .dict f := by
  simp only [toDict]
  cases m <;> cases f <;> cases c <;> simp [setFormat, eq_comm]

/-- C193 is refuted: the format of one call is left in the caller's context and is then used by a later call that asks for no format. -/
theorem C193_context_violation :
    (toDict sampleLib .json (some .jsonb) (.dict none) (some [.fin 1])).2 = .dict (some .jsonb) ∧
    (toDict sampleLib .json none (.dict none) (some [.fin 1])).1 = .ok (.list [.float (.fin 1)]) ∧
    (toDict sampleLib .json none (toDict sampleLib .json (some .jsonb) (.dict none) (some [.fin 1])).2 (some [.fin 1])).1
      = .ok (.text (false, [.fin 1])) := by decide +kernel

/-- C193 is refuted: `context=None`, which `model_dump` accepts, raises `TypeError` when a format is given. -/
theorem C193_none_violation :
    (toDict sampleLib .json (some .list) .none (some [.fin 1])).1 = .error .typeError ∧
    (toDict sampleLib .json none .none (some [.fin 1])).1 = .ok (.list [.float (.fin 1)]) := by decide +kernel

/-! ### C194 -/

section Serializer

variable {σ α β ρ : Type}

/-- What the documentation says about a serializer: it is applied to the content, once, and its result is the entry "content"; if it
raises, `to_dict` raises `ValueError`. -/
def applyOnce (f : Callable σ α β) (content : α) (rest : ρ) (s : σ) : σ × Except Exc (ρ × β) :=
  ((f s content).1, match (f s content).2 with
    | .ok b => .ok (rest, b)
    | .error _ => .error .valueError)

/-- A callable without effects. -/
def Pure (f : Callable σ α β) : Prop := ∀ s a, (f s a).1 = s

/-- C194 for serializers without effects: `to_dict(content_serializer=f)` has `f(content)` as its content and the other entries
unchanged, and raises `ValueError` if `f` raises. -/
theorem C194_pure_serializer_partial (dump : α → β) (rest : ρ) (content : α) (f : Callable σ α β) (hf : Pure f) (s : σ) :
    toDictContent dump (.ok rest) content (.fn f) s = applyOnce f content rest s := by
  have h1 := hf s content
  rcases hs : f s content with ⟨s1, r⟩
  rw [hs] at h1
  simp only at h1
  rw [h1] at hs
  cases r with
  | ok b => simp only [toDictContent, secondCall, applyOnce, hs]
  | error e => simp only [toDictContent, applyOnce, hs]

/-- C194, exactly: `to_dict(content_serializer=f)` does what one application of `f` does if and only if `f` fails, or a second application right
after the first one returns the same value and has no further effect. -/
theorem C194_exact_partial (dump : α → β) (rest : ρ) (content : α) (f : Callable σ α β) (s : σ) :
    toDictContent dump (.ok rest) content (.fn f) s = applyOnce f content rest s ↔
      ∀ b, (f s content).2 = .ok b → f (f s content).1 content = ((f s content).1, .ok b) := by
  rcases hs : f s content with ⟨s1, r⟩
  cases r with
  | error e => simp only [toDictContent, applyOnce, hs]; simp
  | ok b =>
    rcases hs2 : f s1 content with ⟨s2, r2⟩
    cases r2 with
    | error e => simp only [toDictContent, secondCall, applyOnce, hs, hs2]; simp [hs2]
    | ok b2 => simp only [toDictContent, secondCall, applyOnce, hs, hs2]; simp [hs2]

/-- A serializer with an effect that meets the condition: it stores the content unless it is stored already. -/
example (s : List Nat) : toDictContent (ρ := Unit) id (.ok ()) 7 (.fn (fun s a => (if a ∈ s then s else a :: s, .ok a))) s
    = applyOnce (fun s a => (if a ∈ s then s else a :: s, .ok a)) 7 () s := by
  refine (C194_exact_partial _ _ _ _ _).2 ?_
  intro b hb
  simp only [Except.ok.injEq] at hb
  subst hb
  by_cases h : 7 ∈ s <;> simp [h]

/-- A serializer as in the documentation: it stores the content externally and returns the number under which it is stored. -/
def store : Callable (List Nat) Nat Nat := fun s a => (s ++ [a], .ok s.length)

/-- C194 is refuted: with a serializer that stores the content externally, one `to_dict` stores it twice; the first copy is never
referred to. -/
theorem C194_twice_violation :
    toDictContent (ρ := Unit) id (.ok ()) 7 (.fn store) [] = ([7, 7], .ok ((), 1)) ∧ applyOnce store 7 () [] = ([7], .ok ((), 0)) :=
  ⟨rfl, rfl⟩

/-- C194: something that is not callable is refused with `TypeError`, before anything happens; without a serializer the content is written as usual. -/
theorem C194_argument (dump : α → β) (rest : ρ) (content : α) (s : σ) :
    toDictContent dump (.ok rest) content (.notCallable : SerArg σ α β) s = (s, .error .typeError) ∧
    toDictContent dump (.ok rest) content (.absent : SerArg σ α β) s = (s, .ok (rest, dump content)) := ⟨rfl, rfl⟩

/-- A serializer that can be used once only. -/
def oneShot : Callable Bool Nat Nat := fun s a => (true, if s then .error .runtimeError else .ok a)

/-- C194 is refuted: a serializer that succeeds the first time makes `to_dict` fail, with an exception that is not a `ValueError`. -/
theorem C194_one_shot_violation :
    toDictContent (ρ := Unit) id (.ok ()) 7 (.fn oneShot) false = (true, .error .runtimeError) ∧
    applyOnce oneShot 7 () false = (true, .ok ((), 7)) := ⟨rfl, rfl⟩

example : Pure (fun (s : Nat) (a : Nat) => (s, .ok (a + 1)) : Callable Nat Nat Nat) := fun _ _ => rfl

end Serializer

end Verif.Embedding
