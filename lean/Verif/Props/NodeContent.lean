import Verif.Model.NodeContent

set_option linter.unusedSimpArgs false
set_option linter.unusedVariables false

/-!
# C324, C325: which content a node accepts
-/

namespace Verif.NodeContent

/-! ### Specification -/

/-- The dict names no class: it has no entry "metadata", or that entry is a dict whose entry "lion_class" is absent or false. -/
inductive Plain : Dict String V → Prop where
  | noMeta {es} : es.get? "metadata" = none → Plain es
  | noClass {es ms} : es.get? "metadata" = some (.dict ms) → Dict.get? ms "lion_class" = none → Plain es
  | falseClass {es ms c} : es.get? "metadata" = some (.dict ms) → Dict.get? ms "lion_class" = some c → c.truthy = false → Plain es

/-- The dict names the class `s`. -/
def Names (es : Dict String V) (s : String) : Prop := s ≠ "" ∧ ∃ ms, es.get? "metadata" = some (.dict ms) ∧ Dict.get? ms "lion_class" = some (.str s)

/-- The entry "metadata" is not a dict. -/
def OddMeta (es : Dict String V) : Prop := ∃ m, es.get? "metadata" = some m ∧ ∀ ms, m ≠ .dict ms

/-- The class entry is true but not a text. -/
def OddClass (es : Dict String V) : Prop := ∃ ms c, es.get? "metadata" = some (.dict ms) ∧ Dict.get? ms "lion_class" = some c ∧ c.truthy = true ∧ ∀ s, c ≠ .str s

/-- The function that reads a dict that names the class `s`. -/
def reader (w : World) (s : String) : Dict String V → Nat → Except Err Nat := if w.registered s = true ∨ w.registered (w.shortName s) = true then w.nodeFrom else w.elementFrom

/-! ### Lemmas -/

/-- Every dict is of exactly one of the four forms. -/
theorem forms (es : Dict String V) : Plain es ∨ (∃ s, Names es s) ∨ OddMeta es ∨ OddClass es := by
  cases h : es.get? "metadata" with
  | none => exact .inl (.noMeta h)
  | some m =>
    cases m with
    | none => exact .inr (.inr (.inl ⟨_, h, by simp⟩))
    | str s => exact .inr (.inr (.inl ⟨_, h, by simp⟩))
    | bytes b => exact .inr (.inr (.inl ⟨_, h, by simp⟩))
    | obj i t hs => exact .inr (.inr (.inl ⟨_, h, by simp⟩))
    | dict ms =>
      cases hc : Dict.get? ms "lion_class" with
      | none => exact .inl (.noClass h hc)
      | some c =>
        cases ht : c.truthy with
        | false => exact .inl (.falseClass h hc ht)
        | true =>
          by_cases hs : ∃ s, c = .str s
          · obtain ⟨s, rfl⟩ := hs
            refine .inr (.inl ⟨s, ?_, ms, h, hc⟩)
            intro e; subst e; simp [V.truthy] at ht
          · exact .inr (.inr (.inr ⟨ms, c, h, hc, ht, fun s e => hs ⟨s, e⟩⟩))

theorem dispatch_false (w : World) (es : Dict String V) (n : Nat) (c : V) (h : c.truthy = false) : dispatch w es n c = .ok .same := by
  cases c with
  | none => rfl
  | str s => simp [V.truthy] at h; simp [dispatch, h]
  | bytes b => simp [V.truthy] at h; simp [dispatch, h]
  | dict ds =>
    simp only [V.truthy, Bool.not_eq_false'] at h
    simp only [dispatch, h, if_true]
  | obj i t hs => simp [V.truthy] at h; simp [dispatch, h]

theorem construct_plain (w : World) {es : Dict String V} (n : Nat) (h : Plain es) : construct w (.dict es n) = if n = 0 then .content .same else .validationError := by
  have : validate w (.dict es n) = .ok .same := by
    cases h with
    | noMeta h => simp only [validate, h]
    | noClass h1 h2 => simp only [validate, h1, fromMeta, h2]; rfl
    | falseClass h1 h2 h3 => simp only [validate, h1, fromMeta, h2]; exact dispatch_false w es n _ h3
  unfold construct
  rw [this]; rfl

theorem construct_names (w : World) {es : Dict String V} (n : Nat) {s : String} (h : Names es s) :
    construct w (.dict es n) = match reader w s es n with | .ok i => .content (.read i) | .error e => wrap e := by
  obtain ⟨h0, ms, h1, h2⟩ := h
  have : validate w (.dict es n) = asGot (reader w s es n) := by
    simp only [validate, h1, fromMeta, h2, Option.getD_some, dispatch, if_neg h0, reader]
    by_cases hr : w.registered s = true ∨ w.registered (w.shortName s) = true
    · rw [if_pos hr, if_pos (by simpa using hr)]
    · rw [if_neg hr, if_neg (by simpa using hr)]
  unfold construct
  rw [this]
  cases reader w s es n <;> rfl

theorem construct_oddMeta (w : World) {es : Dict String V} (n : Nat) (h : OddMeta es) : construct w (.dict es n) = .escapes .attr := by
  obtain ⟨m, h1, h2⟩ := h
  have : validate w (.dict es n) = .error .attr := by
    simp only [validate, h1]
    cases m with
    | dict ms => exact absurd rfl (h2 ms)
    | none => rfl
    | str s => rfl
    | bytes b => rfl
    | obj i t hs => rfl
  unfold construct
  rw [this]; rfl

theorem construct_oddClass (w : World) {es : Dict String V} (n : Nat) (h : OddClass es) : construct w (.dict es n) = .escapes .attr ∨ construct w (.dict es n) = .escapes .type := by
  obtain ⟨ms, c, h1, h2, h3, h4⟩ := h
  have : validate w (.dict es n) = .error .attr ∨ validate w (.dict es n) = .error .type := by
    simp only [validate, h1, fromMeta, h2, Option.getD_some]
    cases c with
    | none => simp [V.truthy] at h3
    | str s => exact absurd rfl (h4 s)
    | bytes b => simp [V.truthy] at h3; simp [dispatch, h3]
    | dict ds =>
      simp only [V.truthy, Bool.not_eq_true'] at h3
      simp [dispatch, h3]
    | obj i t hs =>
      simp only [V.truthy] at h3
      cases hs <;> simp [dispatch, h3]
  unfold construct
  rcases this with e | e <;> rw [e]
  · exact .inl rfl
  · exact .inr rfl

/-! ### C324: plain data is accepted -/

/-- A world in which nothing can be read. -/
def empty : World := { registered := fun _ => false, shortName := id, nodeFrom := fun _ _ => .error .value, elementFrom := fun _ _ => .error .value }

/-- C324 fails: a dict whose entry "metadata" is `None` makes the constructor raise `AttributeError`, and one whose metadata name a class is taken for a serialised element. -/
theorem C324_violation :
    construct empty (.dict [("metadata", .none)] 0) = .escapes .attr ∧
    construct empty (.dict [("metadata", .dict [("lion_class", .str "x")])] 0) = .validationError ∧
    construct { empty with elementFrom := fun _ _ => .ok 7 } (.dict [("metadata", .dict [("lion_class", .str "x")])] 0) = .content (.read 7) := by decide

/-- C324, the exact condition: content is accepted and kept as it is exactly if it is `None`, an object with `to_dict`, a pydantic model, or a dict with texts as keys that names no class. -/
theorem C324_exact_partial (w : World) (v : Arg) :
    construct w v = .content .same ↔ v = .none ∨ (∃ i, v = .serializable i) ∨ ∃ es, v = .dict es 0 ∧ Plain es := by
  cases v with
  | none => exact ⟨fun _ => .inl rfl, fun _ => rfl⟩
  | serializable i => exact ⟨fun _ => .inr (.inl ⟨i, rfl⟩), fun _ => rfl⟩
  | other i => exact ⟨fun h => (by cases h), fun h => by rcases h with h | ⟨_, h⟩ | ⟨_, h, _⟩ <;> cases h⟩
  | dict es n =>
    constructor
    · intro h
      refine .inr (.inr ⟨es, ?_⟩)
      rcases forms es with hp | ⟨s, hs⟩ | ho | ho
      · rw [construct_plain w n hp] at h
        by_cases e : n = 0
        · subst e; exact ⟨rfl, hp⟩
        · rw [if_neg e] at h; cases h
      · rw [construct_names w n hs] at h
        cases e : reader w s es n with
        | ok i => rw [e] at h; cases h
        | error x => rw [e] at h; cases x <;> cases h
      · rw [construct_oddMeta w n ho] at h; cases h
      · rcases construct_oddClass w n ho with e | e <;> rw [e] at h <;> cases h
    · rintro (h | ⟨_, h⟩ | ⟨es', h, hp⟩)
      · cases h
      · cases h
      · cases h; rw [construct_plain w 0 hp]; rfl

/-- C324, restored: content is replaced by an element exactly if it is a dict that names a class and the reading function for that name (of `Node` if the name or its last part is registered, else of `Element`) returns that element. -/
theorem C324_read_partial (w : World) (v : Arg) (i : Nat) :
    construct w v = .content (.read i) ↔ ∃ es n s, v = .dict es n ∧ Names es s ∧ reader w s es n = .ok i := by
  cases v with
  | none => exact ⟨fun h => (by cases h), fun ⟨_, _, _, h, _⟩ => by cases h⟩
  | serializable j => exact ⟨fun h => (by cases h), fun ⟨_, _, _, h, _⟩ => by cases h⟩
  | other j => exact ⟨fun h => (by cases h), fun ⟨_, _, _, h, _⟩ => by cases h⟩
  | dict es n =>
    constructor
    · intro h
      rcases forms es with hp | ⟨s, hs⟩ | ho | ho
      · rw [construct_plain w n hp] at h
        by_cases e : n = 0
        · rw [if_pos e] at h; cases h
        · rw [if_neg e] at h; cases h
      · rw [construct_names w n hs] at h
        cases e : reader w s es n with
        | ok j => rw [e] at h; cases h; exact ⟨es, n, s, rfl, hs, e⟩
        | error x => rw [e] at h; cases x <;> cases h
      · rw [construct_oddMeta w n ho] at h; cases h
      · rcases construct_oddClass w n ho with e | e <;> rw [e] at h <;> cases h
    · rintro ⟨es', n', s, h, hs, hr⟩
      cases h
      rw [construct_names w n hs, hr]

/-! ### C325: rejected content -/

/-- C325 fails: a number as content raises `TypeError`, a dict with odd metadata `AttributeError` or `TypeError`. -/
theorem C325_violation :
    construct empty (.other 1) = .escapes .type ∧ construct empty (.dict [("metadata", .str "x")] 0) = .escapes .attr ∧
    construct empty (.dict [("metadata", .dict [("lion_class", .obj 1 true false)])] 0) = .escapes .type := by decide

/-- C325, the exact condition: something else than `ValidationError` is raised exactly if the content is of another type than the declared ones, a dict with metadata that are no dict or a class entry that is true and no text,
or the reading function raises something else than `ValueError`. -/
theorem C325_exact_partial (w : World) (v : Arg) :
    (∃ e, construct w v = .escapes e) ↔ (∃ i, v = .other i) ∨ ∃ es n, v = .dict es n ∧ (OddMeta es ∨ OddClass es ∨ ∃ s e, Names es s ∧ reader w s es n = .error e ∧ e ≠ .value) := by
  cases v with
  | none => exact ⟨fun ⟨_, h⟩ => (by cases h), fun h => by rcases h with ⟨_, h⟩ | ⟨_, _, h, _⟩ <;> cases h⟩
  | serializable j => exact ⟨fun ⟨_, h⟩ => (by cases h), fun h => by rcases h with ⟨_, h⟩ | ⟨_, _, h, _⟩ <;> cases h⟩
  | other j => exact ⟨fun _ => .inl ⟨j, rfl⟩, fun _ => ⟨.type, rfl⟩⟩
  | dict es n =>
    constructor
    · rintro ⟨x, h⟩
      refine .inr ⟨es, n, rfl, ?_⟩
      rcases forms es with hp | ⟨s, hs⟩ | ho | ho
      · rw [construct_plain w n hp] at h
        by_cases e : n = 0
        · rw [if_pos e] at h; cases h
        · rw [if_neg e] at h; cases h
      · rw [construct_names w n hs] at h
        cases e : reader w s es n with
        | ok j => rw [e] at h; cases h
        | error y => rw [e] at h; exact .inr (.inr ⟨s, y, hs, e, by rintro rfl; cases h⟩)
      · exact .inl ho
      · exact .inr (.inl ho)
    · rintro (⟨_, h⟩ | ⟨es', n', h, ho | ho | ⟨s, e, hs, hr, hne⟩⟩)
      · cases h
      · cases h; exact ⟨_, construct_oddMeta w n ho⟩
      · cases h; rcases construct_oddClass w n ho with e | e <;> exact ⟨_, e⟩
      · cases h
        refine ⟨e, ?_⟩
        rw [construct_names w n hs, hr]
        cases e with
        | value => exact absurd rfl hne
        | type => rfl
        | attr => rfl
        | another x => rfl

/-- Non-vacuity: all the forms occur. -/
example : Plain [("a", .none), ("metadata", .dict [("lion_class", .str "")])] ∧ Names [("metadata", .dict [("lion_class", .str "m.C")])] "m.C" ∧ OddMeta [("metadata", .obj 3 true true)] ∧
    OddClass [("metadata", .dict [("lion_class", .obj 3 true true)])] ∧ construct empty (.dict [("a", .str "b")] 0) = .content .same ∧ construct empty (.dict [("a", .str "b")] 2) = .validationError := by
  refine ⟨.falseClass rfl rfl rfl, ⟨by decide, _, rfl, rfl⟩, ⟨_, rfl, by simp⟩, ⟨_, _, rfl, rfl, rfl, by simp⟩, by decide, by decide⟩

end Verif.NodeContent
