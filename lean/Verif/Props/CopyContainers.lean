import Verif.Model.CopyContainers
import Verif.Props.Params
import Verif.Props.ParamExact

/-!
# C260, C261: what `with_updates(copy_containers=...)` copies and what it shares
-/

set_option linter.unusedSectionVars false
set_option linter.unusedSimpArgs false
set_option linter.unusedVariables false

namespace Verif.CopyContainers

open Verif.Params

variable {α φ : Type} [DecidableEq φ]

/-! ### Specification -/

/-- The mutable objects that can be reached from a value. -/
def ids : Val α → List Nat
  | .atom _ => []
  | .imm items => ids items
  | .box _ i items => i :: ids items
  | .nil => []
  | .cons x r => ids x ++ ids r

/-- The value without the identities: two values are equal in the sense of `==` iff their shapes are. -/
def shape : Val α → Val α
  | .atom a => .atom a
  | .imm items => .imm (shape items)
  | .box k _ items => .box k 0 (shape items)
  | .nil => .nil
  | .cons x r => .cons (shape x) (shape r)

/-- The shapes of the values of a dict. -/
def shapes (d : Dict φ (Val α)) : Dict φ (Val α) := d.map (fun kv => (kv.1, shape kv.2))

/-- The value after the object `i` was modified: it now holds `items`. -/
def write (i : Nat) (items : Val α) : Val α → Val α
  | .atom a => .atom a
  | .imm l => .imm (write i items l)
  | .box k j l => if j = i then .box k j items else .box k j (write i items l)
  | .nil => .nil
  | .cons x r => .cons (write i items x) (write i items r)

/-- `isinstance(v, (MutableSequence, MutableMapping, MutableSet))`. -/
def IsContainer (v : Val α) : Prop := ∃ k i items, v = .box k i items ∧ k ≠ .object

/-- A mutable container without a method `copy`. -/
def LacksCopy (v : Val α) : Prop := ∃ i items, v = .box .noCopy i items

/-- The tests on values look at contents, not identities; `Undefined` is a sentinel and not the value of an enum member. -/
structure Sane (cfg : Cfg (Val α)) : Prop where
  sentinel : ∀ v w, shape v = shape w → cfg.sentinel v = cfg.sentinel w
  undefined : ∀ v w, shape v = shape w → cfg.undefined v = cfg.undefined w
  isSentinel : ∀ v, cfg.undefined v = true → cfg.sentinel v = true
  norm : ∀ v, cfg.sentinel v = false → cfg.undefined (cfg.norm v) = false

/-! ### Lemmas on values -/

theorem shape_deepcopy (new : Nat → Nat) : ∀ v : Val α, shape (deepcopy new v) = shape v
  | .atom a => rfl
  | .imm items => by simp only [deepcopy, shape, shape_deepcopy new items]
  | .box k i items => by simp only [deepcopy, shape, shape_deepcopy new items]
  | .nil => rfl
  | .cons x r => by simp only [deepcopy, shape, shape_deepcopy new x, shape_deepcopy new r]

theorem ids_deepcopy (new : Nat → Nat) : ∀ v : Val α, ids (deepcopy new v) = (ids v).map new
  | .atom a => rfl
  | .imm items => by simp only [deepcopy, ids, ids_deepcopy new items]
  | .box k i items => by simp only [deepcopy, ids, ids_deepcopy new items, List.map_cons]
  | .nil => rfl
  | .cons x r => by simp only [deepcopy, ids, ids_deepcopy new x, ids_deepcopy new r, List.map_append]

/-- Modifying an object that cannot be reached from a value does not change the value. -/
theorem write_of_notMem (i : Nat) (items : Val α) : ∀ v : Val α, i ∉ ids v → write i items v = v
  | .atom a, _ => rfl
  | .imm l, h => by simp only [write, write_of_notMem i items l h]
  | .box k j l, h => by
    simp only [ids, List.mem_cons, not_or] at h
    simp only [write, if_neg (Ne.symm h.1), write_of_notMem i items l h.2]
  | .nil, _ => rfl
  | .cons x r, h => by
    simp only [ids, List.mem_append, not_or] at h
    simp only [write, write_of_notMem i items x h.1, write_of_notMem i items r h.2]

theorem deepValue_container {v : Val α} (h : IsContainer v) (new : Nat → Nat) : deepValue new v = deepcopy new v := by
  obtain ⟨k, i, items, rfl, hk⟩ := h
  cases k
  · rfl
  · rfl
  · exact absurd rfl hk

theorem deepValue_other {v : Val α} (h : ¬ IsContainer v) (new : Nat → Nat) : deepValue new v = v := by
  cases v with
  | box k i items =>
    cases k
    · exact absurd ⟨_, _, _, rfl, nofun⟩ h
    · exact absurd ⟨_, _, _, rfl, nofun⟩ h
    · rfl
  | _ => rfl

theorem shape_deepValue (new : Nat → Nat) (v : Val α) : shape (deepValue new v) = shape v := by
  by_cases h : IsContainer v
  · rw [deepValue_container h, shape_deepcopy]
  · rw [deepValue_other h]

theorem shallow_lacks {v : Val α} (h : LacksCopy v) (new : Nat → Nat) : shallowValue new v = .error .attributeError := by
  obtain ⟨i, items, rfl⟩ := h
  rfl

theorem shallow_ok {v : Val α} (h : ¬ LacksCopy v) (new : Nat → Nat) : ∃ w, shallowValue new v = .ok w ∧ shape w = shape v := by
  cases v with
  | box k i items =>
    cases k
    · exact ⟨_, rfl, rfl⟩
    · exact absurd ⟨_, _, rfl⟩ h
    · exact ⟨_, rfl, rfl⟩
  | _ => exact ⟨_, rfl, rfl⟩

theorem copyValue_ok {m : Mode} {v : Val α} (h : ¬ (m = .shallow ∧ LacksCopy v)) (new : Nat → Nat) :
    ∃ w, copyValue m new v = .ok w ∧ shape w = shape v := by
  cases m with
  | none => exact ⟨v, rfl, rfl⟩
  | shallow => exact shallow_ok (fun hl => h ⟨rfl, hl⟩) new
  | deep => exact ⟨_, rfl, shape_deepValue new v⟩
  | other => exact ⟨v, rfl, rfl⟩

/-! ### Lemmas on the loop -/

theorem copyItems_ok {m : Mode} {new : φ → Nat → Nat} {kw : Dict φ (Val α)} : ∀ {d : Dict φ (Val α)},
    (∀ k v, (k, v) ∈ d → k ∉ kw.keys → ¬ (m = .shallow ∧ LacksCopy v)) → ∃ d', copyItems m new kw d = .ok d' ∧ shapes d' = shapes d
  | [], _ => ⟨[], rfl, rfl⟩
  | (k, v) :: d, h => by
    obtain ⟨d', h1, h2⟩ := copyItems_ok (m := m) (new := new) (kw := kw) (d := d) (fun k' v' hm => h k' v' (List.mem_cons_of_mem _ hm))
    by_cases hk : k ∈ kw.keys
    · refine ⟨(k, v) :: d', ?_, ?_⟩
      · simp only [copyItems, if_pos hk, h1]
      · simp only [shapes, List.map_cons] at h2 ⊢
        rw [h2]
    · obtain ⟨w, hw1, hw2⟩ := copyValue_ok (h k v (List.mem_cons_self ..) hk) (new k)
      refine ⟨(k, w) :: d', ?_, ?_⟩
      · simp only [copyItems, if_neg hk, h1, hw1]
      · simp only [shapes, List.map_cons] at h2 ⊢
        rw [h2, hw2]

theorem copyItems_error {new : φ → Nat → Nat} {kw : Dict φ (Val α)} : ∀ {d : Dict φ (Val α)},
    (∃ k v, (k, v) ∈ d ∧ k ∉ kw.keys ∧ LacksCopy v) → copyItems .shallow new kw d = .error .attributeError
  | [], h => by obtain ⟨_, _, h, _⟩ := h; cases h
  | (k, v) :: d, h => by
    obtain ⟨k', v', hm, hk', hl⟩ := h
    rcases List.mem_cons.1 hm with he | hm
    · injection he with he1 he2
      subst he1 he2
      have hc : copyValue .shallow (new k') v' = .error .attributeError := shallow_lacks hl _
      simp only [copyItems, if_neg hk', hc]
    · have ih := copyItems_error (new := new) (kw := kw) (d := d) ⟨k', v', hm, hk', hl⟩
      by_cases hk : k ∈ kw.keys
      · simp only [copyItems, if_pos hk, ih]
      · simp only [copyItems, if_neg hk, ih]
        by_cases hv : LacksCopy v
        · have hc : copyValue .shallow (new k) v = .error .attributeError := shallow_lacks hv _
          rw [hc]
        · obtain ⟨w, hw, _⟩ := copyValue_ok (m := .shallow) (v := v) (fun h => hv h.2) (new k)
          rw [hw]

theorem copyItems_keys {m : Mode} {new : φ → Nat → Nat} {kw : Dict φ (Val α)} : ∀ {d d' : Dict φ (Val α)},
    copyItems m new kw d = .ok d' → d'.keys = d.keys
  | [], d', h => by
    injection h with h
    subst h
    rfl
  | (k, v) :: d, d', h => by
    simp only [copyItems] at h
    split at h
    · split at h
      · cases h
      · rename_i d1 hd
        injection h with h
        subst h
        have := copyItems_keys hd
        simp only [Dict.keys, List.map_cons] at this ⊢
        rw [this]
    · split at h
      · cases h
      · split at h
        · cases h
        · rename_i d1 hd
          injection h with h
          subst h
          have := copyItems_keys hd
          simp only [Dict.keys, List.map_cons] at this ⊢
          rw [this]

theorem copyItems_get? {m : Mode} {new : φ → Nat → Nat} {kw : Dict φ (Val α)} : ∀ {d d' : Dict φ (Val α)},
    copyItems m new kw d = .ok d' → ∀ {k : φ} {v : Val α}, k ∉ kw.keys → d.get? k = some v →
    ∃ w, copyValue m (new k) v = .ok w ∧ d'.get? k = some w
  | [], d', h, k, v, hk, hv => by cases hv
  | (k1, v1) :: d, d', h, k, v, hk, hv => by
    rw [Dict.get?_cons] at hv
    simp only [copyItems] at h
    split at h
    · rename_i hk1
      split at h
      · cases h
      · rename_i d1 hd
        injection h with h
        subst h
        have hne : k1 ≠ k := fun he => hk (he ▸ hk1)
        rw [if_neg hne] at hv
        obtain ⟨w, hw1, hw2⟩ := copyItems_get? hd hk hv
        exact ⟨w, hw1, by rw [Dict.get?_cons, if_neg hne]; exact hw2⟩
    · split at h
      · cases h
      · rename_i w hw
        split at h
        · cases h
        · rename_i d1 hd
          injection h with h
          subst h
          by_cases hne : k1 = k
          · subst hne
            rw [if_pos rfl] at hv
            injection hv with hv
            subst hv
            exact ⟨w, hw, by rw [Dict.get?_cons, if_pos rfl]⟩
          · rw [if_neg hne] at hv
            obtain ⟨w', hw1, hw2⟩ := copyItems_get? hd hk hv
            exact ⟨w', hw1, by rw [Dict.get?_cons, if_neg hne]; exact hw2⟩

/-! ### Lemmas on shapes -/

theorem keys_shapes (d : Dict φ (Val α)) : (shapes d).keys = d.keys := by
  simp [shapes, Dict.keys, Function.comp_def]

theorem get?_shapes : ∀ (d : Dict φ (Val α)) (k : φ), (shapes d).get? k = (d.get? k).map shape
  | [], k => rfl
  | (k1, v) :: d, k => by
    have ih := get?_shapes d k
    have hcons : shapes ((k1, v) :: d) = (k1, shape v) :: shapes d := rfl
    rw [hcons, Dict.get?_cons, Dict.get?_cons, ih]
    split <;> rfl

theorem shapes_set : ∀ (d : Dict φ (Val α)) (k : φ) (v : Val α), shapes (d.set k v) = (shapes d).set k (shape v)
  | [], k, v => rfl
  | (k1, w) :: d, k, v => by
    have ih := shapes_set d k v
    have hcons : shapes ((k1, w) :: d) = (k1, shape w) :: shapes d := rfl
    rw [hcons]
    simp only [Dict.set]
    split
    · rfl
    · rw [← ih]; rfl

theorem shapes_update : ∀ (kw d : Dict φ (Val α)), shapes (d.update kw) = (shapes d).update (shapes kw)
  | [], d => rfl
  | (k, v) :: kw, d => by
    have h := shapes_update kw (d.set k v)
    rw [shapes_set] at h
    exact h

theorem get?_shape_eq {d d' : Dict φ (Val α)} (h : shapes d = shapes d') (k : φ) : (d.get? k).map shape = (d'.get? k).map shape := by
  rw [← get?_shapes, ← get?_shapes, h]

theorem missing_eq {cfg : Cfg (Val α)} (hc : Sane cfg) {d d' : Dict φ (Val α)} (h : shapes d = shapes d') (k : φ) :
    missingAttr cfg d k = missingAttr cfg d' k := by
  have hk := get?_shape_eq h k
  simp only [missingAttr]
  cases h1 : d.get? k with
  | none =>
    rw [h1] at hk
    cases h2 : d'.get? k with
    | none => rfl
    | some w => rw [h2] at hk; cases hk
  | some v =>
    rw [h1] at hk
    cases h2 : d'.get? k with
    | none => rw [h2] at hk; cases hk
    | some w => rw [h2] at hk; injection hk with hk; exact hc.sentinel v w hk

theorem undefined_eq {cfg : Cfg (Val α)} (hc : Sane cfg) {d d' : Dict φ (Val α)} (h : shapes d = shapes d') (k : φ) :
    undefinedAttr cfg d k = undefinedAttr cfg d' k := by
  have hk := get?_shape_eq h k
  simp only [undefinedAttr]
  cases h1 : d.get? k with
  | none =>
    rw [h1] at hk
    cases h2 : d'.get? k with
    | none => rfl
    | some w => rw [h2] at hk; cases hk
  | some v =>
    rw [h1] at hk
    cases h2 : d'.get? k with
    | none => rw [h2] at hk; cases hk
    | some w => rw [h2] at hk; injection hk with hk; exact hc.undefined v w hk

theorem prefill_eq {cfg : Cfg (Val α)} (hc : Sane cfg) : ∀ (keys : List φ) {d d' : Dict φ (Val α)}, shapes d = shapes d' →
    shapes (prefill cfg keys d) = shapes (prefill cfg keys d')
  | [], d, d', h => h
  | k :: ks, d, d', h => by
    simp only [prefill, undefined_eq hc h k]
    split
    · exact prefill_eq hc ks (by rw [shapes_set, shapes_set, h])
    · exact prefill_eq hc ks h

theorem init_eq {cfg : Cfg (Val α)} (hc : Sane cfg) (keys : List φ) {d d' : Dict φ (Val α)} (h : shapes d = shapes d') :
    (init cfg keys d).map shapes = (init cfg keys d').map shapes := by
  have hk : d.keys = d'.keys := by rw [← keys_shapes d, ← keys_shapes d', h]
  have hm : keys.any (missingAttr cfg d) = keys.any (missingAttr cfg d') := by
    congr 1
    funext k
    exact missing_eq hc h k
  simp only [init, hk, hm]
  split
  · split
    · rfl
    · simp only [Except.map, prefill_eq hc keys h]
  · rfl

theorem mapM_fieldInit_eq {d d' : Dict String (Val α)} (h : shapes d = shapes d') : ∀ l : List (String × ParamCall.Default (Val α)),
    (l.mapM (ParamCall.fieldInit d)).map shapes = (l.mapM (ParamCall.fieldInit d')).map shapes
  | [] => rfl
  | f :: l => by
    have ih := mapM_fieldInit_eq h l
    have hk := get?_shape_eq h f.1
    have hf : (ParamCall.fieldInit d f).map (fun kv => (kv.1, shape kv.2)) = (ParamCall.fieldInit d' f).map (fun kv => (kv.1, shape kv.2)) := by
      simp only [ParamCall.fieldInit]
      cases h1 : d.get? f.1 with
      | none =>
        rw [h1] at hk
        cases h2 : d'.get? f.1 with
        | none => rfl
        | some w => rw [h2] at hk; cases hk
      | some v =>
        rw [h1] at hk
        cases h2 : d'.get? f.1 with
        | none => rw [h2] at hk; cases hk
        | some w =>
          rw [h2] at hk
          injection hk with hk
          simp only [Option.map_some, hk]
    rw [List.mapM_cons, List.mapM_cons]
    cases h1 : ParamCall.fieldInit d f with
    | none =>
      rw [h1] at hf
      cases h2 : ParamCall.fieldInit d' f with
      | none => rfl
      | some w => rw [h2] at hf; cases hf
    | some v =>
      rw [h1] at hf
      cases h2 : ParamCall.fieldInit d' f with
      | none => rw [h2] at hf; cases hf
      | some w =>
        rw [h2] at hf
        injection hf with hf
        cases h3 : l.mapM (ParamCall.fieldInit d) with
        | none =>
          rw [h3] at ih
          cases h4 : l.mapM (ParamCall.fieldInit d') with
          | none => rfl
          | some r => rw [h4] at ih; cases ih
        | some r =>
          rw [h3] at ih
          cases h4 : l.mapM (ParamCall.fieldInit d') with
          | none => rw [h4] at ih; cases ih
          | some r' =>
            rw [h4] at ih
            injection ih with ih
            show some (shapes (v :: r)) = some (shapes (w :: r'))
            have e1 : shapes (v :: r) = (v.1, shape v.2) :: shapes r := rfl
            have e2 : shapes (w :: r') = (w.1, shape w.2) :: shapes r' := rfl
            rw [e1, e2, ih]; exact congrArg (fun p => some (p :: shapes r')) hf

theorem dcInit_eq {cfg : Cfg (Val α)} (hc : Sane cfg) (c : ParamCall.Decl (Val α)) {d d' : Dict String (Val α)} (h : shapes d = shapes d') :
    (ParamCall.dcInit cfg c d).map shapes = (ParamCall.dcInit cfg c d').map shapes := by
  have hk : d.keys = d'.keys := by rw [← keys_shapes d, ← keys_shapes d', h]
  have hm := mapM_fieldInit_eq h c.fields
  simp only [ParamCall.dcInit, hk]
  split
  · cases h1 : c.fields.mapM (ParamCall.fieldInit d) with
    | none =>
      rw [h1] at hm
      cases h2 : c.fields.mapM (ParamCall.fieldInit d') with
      | none => rfl
      | some r => rw [h2] at hm; cases hm
    | some r =>
      rw [h1] at hm
      cases h2 : c.fields.mapM (ParamCall.fieldInit d') with
      | none => rw [h2] at hm; cases hm
      | some r' =>
        rw [h2] at hm
        injection hm with hm
        have hmi : c.names.any (missingAttr cfg r) = c.names.any (missingAttr cfg r') := by
          congr 1
          funext k
          exact missing_eq hc hm k
        simp only [hmi]
        split
        · rfl
        · simp only [Except.map, prefill_eq hc c.names hm]
  · rfl

/-! ## C260 -/

/-- The kept entries of `to_dict()` that `copy_containers="shallow"` cannot copy. -/
def Uncopyable (m : Mode) (d kw : Dict φ (Val α)) : Prop := m = .shallow ∧ ∃ k v, (k, v) ∈ d ∧ k ∉ kw.keys ∧ LacksCopy v

theorem updated_eq {build : Dict φ (Val α) → Except Exc (Attrs φ (Val α))}
    (hb : ∀ d d' : Dict φ (Val α), shapes d = shapes d' → (build d).map shapes = (build d').map shapes) {m : Mode} (hm : m ≠ .other)
    (new : φ → Nat → Nat) (d kw : Dict φ (Val α)) :
    (Uncopyable m d kw → updated build m new d kw = .error .attributeError) ∧
    (¬ Uncopyable m d kw → (updated build m new d kw).map shapes = (build (d.update kw)).map shapes) := by
  constructor
  · rintro ⟨rfl, hu⟩
    simp only [updated, if_neg hm, copyItems_error hu]
  · intro hu
    obtain ⟨d', h1, h2⟩ := copyItems_ok (m := m) (new := new) (kw := kw) (d := d)
      (fun k v hkv hk hl => hu ⟨hl.1, k, v, hkv, hk, hl.2⟩)
    simp only [updated, if_neg hm, h1]
    exact hb _ _ (by rw [shapes_update, shapes_update, h2])

/-- C260 (Params): whatever is copied, the new object has the same values as without copying, or the same error is raised; only
`copy_containers="shallow"` adds an error, AttributeError, exactly if a kept field is a mutable container without a method `copy`. -/
theorem C260_same_values (cfg : Cfg (Val α)) (hc : Sane cfg) (keys : List φ) {m : Mode} (hm : m ≠ .other) (new : φ → Nat → Nat)
    (a : Attrs φ (Val α)) (kw : Dict φ (Val α)) :
    (Uncopyable m (toDict cfg keys a) kw → withUpdates cfg keys m new a kw = .error .attributeError) ∧
    (¬ Uncopyable m (toDict cfg keys a) kw →
      (withUpdates cfg keys m new a kw).map shapes = (Params.withUpdates cfg keys a kw).map shapes) :=
  updated_eq (fun _ _ h => init_eq hc keys h) hm new _ kw

/-- C260 (DataClass): the same. -/
theorem C260_same_values_dataclass (cfg : Cfg (Val α)) (hc : Sane cfg) (c : ParamCall.Decl (Val α)) {m : Mode} (hm : m ≠ .other)
    (new : String → Nat → Nat) (a : Attrs String (Val α)) (kw : Dict String (Val α)) :
    (Uncopyable m (toDict cfg c.names a) kw → dcWithUpdates cfg c m new a kw = .error .attributeError) ∧
    (¬ Uncopyable m (toDict cfg c.names a) kw →
      (dcWithUpdates cfg c m new a kw).map shapes = (ParamCall.dcWithUpdates cfg c a kw).map shapes) :=
  updated_eq (fun _ _ h => dcInit_eq hc c h) hm new _ kw

/-- C260: any other argument is refused. -/
theorem C260_invalid (cfg : Cfg (Val α)) (keys : List φ) (c : ParamCall.Decl (Val α)) (new : φ → Nat → Nat) (new' : String → Nat → Nat)
    (a kw : Dict φ (Val α)) (a' kw' : Dict String (Val α)) :
    withUpdates cfg keys .other new a kw = .error .valueError ∧ dcWithUpdates cfg c .other new' a' kw' = .error .valueError :=
  ⟨rfl, rfl⟩

/-- The attribute of a kept field. -/
theorem attr_kept {cfg : Cfg (Val α)} (hc : Sane cfg) {keys : List φ} (hk : keys.Nodup) {m : Mode} {new : φ → Nat → Nat}
    {a a' : Attrs φ (Val α)} {kw : Dict φ (Val α)} (hw : kw.WF) (h : withUpdates cfg keys m new a kw = .ok a') {k : φ} (hkk : k ∈ keys)
    (hn : k ∉ kw.keys) {v : Val α} (hv : a.get? k = some v) (hs : cfg.sentinel v = false) :
    ∃ w, copyValue m (new k) (cfg.norm v) = .ok w ∧ a'.get? k = some w := by
  simp only [withUpdates, updated] at h
  split at h
  · cases h
  · rename_i hmo
    split at h
    · cases h
    · rename_i d' hd
      have hg : (toDict cfg keys a).get? k = some (cfg.norm v) := by
        rw [get?_toDict]
        simp [value, hkk, hv, hs]
      obtain ⟨w, hw1, hw2⟩ := copyItems_get? hd hn hg
      refine ⟨w, hw1, ?_⟩
      have hu : (d'.update kw).get? k = some w := by
        rw [Dict.get?_update hw, (Dict.get?_eq_none_iff kw k).2 hn, hw2]
        rfl
      have hsh : shape w = shape (cfg.norm v) := by
        by_cases hl : m = .shallow ∧ LacksCopy (cfg.norm v)
        · obtain ⟨hms, hl⟩ := hl
          subst hms
          have : copyValue .shallow (new k) (cfg.norm v) = .error .attributeError := shallow_lacks hl _
          rw [this] at hw1
          cases hw1
        · obtain ⟨w', e1, e2⟩ := copyValue_ok hl (new k)
          rw [hw1] at e1
          injection e1 with e1
          rw [e1, e2]
      have hud : cfg.undefined w = false := by rw [hc.undefined w _ hsh]; exact hc.norm v hs
      simp only [init] at h
      split at h
      · split at h
        · cases h
        · injection h with h
          rcases get?_prefill cfg keys (d'.update kw) k with e | ⟨e, _, _⟩
          · rw [← h, e, hu]
          · simp only [undefinedAttr, hu, hud] at e
            cases e
      · cases h

/-- The attribute of a kept field of a `DataClass`. -/
theorem attr_kept_dataclass {cfg : Cfg (Val α)} (hc : Sane cfg) {c : ParamCall.Decl (Val α)} (hk : c.names.Nodup) {m : Mode}
    {new : String → Nat → Nat} {a a' : Attrs String (Val α)} {kw : Dict String (Val α)} (hw : kw.WF)
    (h : dcWithUpdates cfg c m new a kw = .ok a') {k : String} (hkk : k ∈ c.names)
    (hn : k ∉ kw.keys) {v : Val α} (hv : a.get? k = some v) (hs : cfg.sentinel v = false) :
    ∃ w, copyValue m (new k) (cfg.norm v) = .ok w ∧ a'.get? k = some w := by
  simp only [dcWithUpdates, updated] at h
  split at h
  · cases h
  · rename_i hmo
    split at h
    · cases h
    · rename_i d' hd
      have hg : (toDict cfg c.names a).get? k = some (cfg.norm v) := by
        rw [get?_toDict]
        simp [value, hkk, hv, hs]
      obtain ⟨w, hw1, hw2⟩ := copyItems_get? hd hn hg
      refine ⟨w, hw1, ?_⟩
      have hu : (d'.update kw).get? k = some w := by
        rw [Dict.get?_update hw, (Dict.get?_eq_none_iff kw k).2 hn, hw2]
        rfl
      have hsh : shape w = shape (cfg.norm v) := by
        by_cases hl : m = .shallow ∧ LacksCopy (cfg.norm v)
        · obtain ⟨hms, hl⟩ := hl
          subst hms
          have : copyValue .shallow (new k) (cfg.norm v) = .error .attributeError := shallow_lacks hl _
          rw [this] at hw1
          cases hw1
        · obtain ⟨w', e1, e2⟩ := copyValue_ok hl (new k)
          rw [hw1] at e1
          injection e1 with e1
          rw [e1, e2]
      have hud : cfg.undefined w = false := by rw [hc.undefined w _ hsh]; exact hc.norm v hs
      simp only [ParamCall.dcInit] at h
      split at h
      · split at h
        · cases h
        · rename_i r hr
          split at h
          · cases h
          · injection h with h
            obtain ⟨⟨k2, dft⟩, hf1, hf2⟩ := List.mem_map.1 hkk
            simp only at hf2
            subst hf2
            have hr2 := (ParamCall.mapM_fieldInit_get? (d'.update kw) c.fields r hk hr).2 k2 dft hf1
            have hru : Dict.get? r k2 = some w := by rw [hr2, hu]; rfl
            rcases get?_prefill cfg c.names r k2 with e | ⟨e, _, _⟩
            · rw [← h, e, hru]
            · simp only [undefinedAttr, hru, hud] at e
              cases e
      · cases h

/-- What the documentation says `copy_containers=None` and `"shallow"` do to the value `v` of a kept field: `w` is the value in the new object. -/
def CopiedAs (m : Mode) (v w : Val α) : Prop :=
  match m with
  | .none => w = v
  | .shallow => (¬ IsContainer v → w = v) ∧ ∀ k i items, v = .box k i items → k ≠ .object → ∃ j, w = .box k j items ∧ j ≠ i
  | _ => True

theorem copiedAs {m : Mode} {new : Nat → Nat} {v w : Val α} (hf : ∀ i, i ∈ ids v → new i ∉ ids v) (h : copyValue m new v = .ok w) :
    CopiedAs m v w := by
  cases m with
  | none => injection h with h; exact h.symm
  | shallow =>
    refine ⟨fun hnc => ?_, ?_⟩
    · cases v with
      | box k i items =>
        cases k
        · exact absurd ⟨_, _, _, rfl, nofun⟩ hnc
        · exact absurd ⟨_, _, _, rfl, nofun⟩ hnc
        · injection h with h; exact h.symm
      | _ => injection h with h; exact h.symm
    · rintro k i items rfl hk
      cases k
      · injection h with h
        refine ⟨new i, h.symm, fun he => ?_⟩
        have := hf i (List.mem_cons_self ..)
        rw [he] at this
        exact this (List.mem_cons_self ..)
      · cases h
      · exact absurd rfl hk
  | deep => trivial
  | other => trivial

/-- C260 (identities): without `copy_containers` every kept field of the new object is the very same object; with `"shallow"` a kept mutable
container is a new object that holds the very same items, and every other kept value is the same object. -/
theorem C260_identities (cfg : Cfg (Val α)) (hc : Sane cfg) (keys : List φ) (hk : keys.Nodup) (m : Mode) (new : φ → Nat → Nat)
    (a : Attrs φ (Val α))
    (hfresh : ∀ k i k' v, (toDict cfg keys a).get? k' = some v → new k i ∉ ids v)
    (kw : Dict φ (Val α)) (hw : kw.WF) {a' : Attrs φ (Val α)} (h : withUpdates cfg keys m new a kw = .ok a')
    (k : φ) (hn : k ∉ kw.keys) (v : Val α) (hv : (toDict cfg keys a).get? k = some v) :
    ∃ w, a'.get? k = some w ∧ CopiedAs m v w := by
  have hv' := hv
  rw [get?_toDict] at hv'
  simp only [value] at hv'
  split at hv'
  · rename_i hkk
    cases hu : a.get? k with
    | none => rw [hu] at hv'; cases hv'
    | some u =>
      rw [hu] at hv'
      simp only [Option.bind_some] at hv'
      cases hs : cfg.sentinel u
      · rw [hs] at hv'
        simp only [Bool.false_eq_true, if_false, Option.some.injEq] at hv'
        subst hv'
        obtain ⟨w, hw1, hw2⟩ := attr_kept hc hk hw h hkk hn hu hs
        exact ⟨w, hw2, copiedAs (fun i _ => hfresh k i k _ hv) hw1⟩
      · rw [hs] at hv'
        cases hv'
  · cases hv'

/-- C260 (identities, DataClass): the same. -/
theorem C260_identities_dataclass (cfg : Cfg (Val α)) (hc : Sane cfg) (c : ParamCall.Decl (Val α)) (hk : c.names.Nodup) (m : Mode)
    (new : String → Nat → Nat) (a : Attrs String (Val α)) (hfresh : ∀ k i k' v, (toDict cfg c.names a).get? k' = some v → new k i ∉ ids v)
    (kw : Dict String (Val α)) (hw : kw.WF) {a' : Attrs String (Val α)} (h : dcWithUpdates cfg c m new a kw = .ok a')
    (k : String) (hn : k ∉ kw.keys) (v : Val α) (hv : (toDict cfg c.names a).get? k = some v) :
    ∃ w, a'.get? k = some w ∧ CopiedAs m v w := by
  have hv' := hv
  rw [get?_toDict] at hv'
  simp only [value] at hv'
  split at hv'
  · rename_i hkk
    cases hu : a.get? k with
    | none => rw [hu] at hv'; cases hv'
    | some u =>
      rw [hu] at hv'
      simp only [Option.bind_some] at hv'
      cases hs : cfg.sentinel u
      · rw [hs] at hv'
        simp only [Bool.false_eq_true, if_false, Option.some.injEq] at hv'
        subst hv'
        obtain ⟨w, hw1, hw2⟩ := attr_kept_dataclass hc hk hw h hkk hn hu hs
        exact ⟨w, hw2, copiedAs (fun i _ => hfresh k i k _ hv) hw1⟩
      · rw [hs] at hv'
        cases hv'
  · cases hv'

/-! ## C261 -/

/-- Some mutable object can be reached both from `w` and from a value of the dict. -/
def Shares (w : Val α) (d : Dict φ (Val α)) : Prop := ∃ i, i ∈ ids w ∧ ∃ k v, d.get? k = some v ∧ i ∈ ids v

theorem not_shares_write {w : Val α} {d : Dict φ (Val α)} (h : ¬ Shares w d) {i : Nat} (hi : i ∈ ids w) (items : Val α) {k : φ} {v : Val α}
    (hv : d.get? k = some v) : write i items v = v :=
  write_of_notMem i items v (fun hm => h ⟨i, hi, k, v, hv, hm⟩)

theorem shares_deep {new : Nat → Nat} {d : Dict φ (Val α)} (hfresh : ∀ i k v, d.get? k = some v → new i ∉ ids v) {k : φ} {v : Val α}
    (hv : d.get? k = some v) : Shares (deepValue new v) d ↔ ¬ IsContainer v ∧ ids v ≠ [] := by
  by_cases hc : IsContainer v
  · rw [deepValue_container hc]
    constructor
    · rintro ⟨i, hi, k', v', hv', hm⟩
      rw [ids_deepcopy] at hi
      obtain ⟨j, _, rfl⟩ := List.mem_map.1 hi
      exact absurd hm (hfresh j k' v' hv')
    · exact fun h => absurd hc h.1
  · rw [deepValue_other hc]
    constructor
    · rintro ⟨i, hi, _⟩
      refine ⟨hc, fun he => ?_⟩
      rw [he] at hi
      cases hi
    · rintro ⟨_, hne⟩
      cases hi : ids v with
      | nil => exact absurd hi hne
      | cons i l =>
        have hm : i ∈ ids v := by rw [hi]; exact List.mem_cons_self ..
        exact ⟨i, hm, k, v, hv, hm⟩

/-- C261 (Params, exact): after `with_updates(copy_containers="deep", ...)` a kept field of the new object shares a mutable object with the
values of the original exactly if its value is not itself a mutable container (a tuple, a frozen dataclass, an object of another class) and a
mutable object can be reached from it. -/
theorem C261_exact_partial (cfg : Cfg (Val α)) (hc : Sane cfg) (keys : List φ) (hk : keys.Nodup) (new : φ → Nat → Nat)
    (a : Attrs φ (Val α)) (hfresh : ∀ k i k' v, (toDict cfg keys a).get? k' = some v → new k i ∉ ids v)
    (kw : Dict φ (Val α)) (hw : kw.WF) {a' : Attrs φ (Val α)} (h : withUpdates cfg keys .deep new a kw = .ok a')
    (k : φ) (hn : k ∉ kw.keys) (v : Val α) (hv : (toDict cfg keys a).get? k = some v) :
    ∃ w, a'.get? k = some w ∧ (Shares w (toDict cfg keys a) ↔ ¬ IsContainer v ∧ ids v ≠ []) := by
  have hv' := hv
  rw [get?_toDict] at hv'
  simp only [value] at hv'
  split at hv'
  · rename_i hkk
    cases hu : a.get? k with
    | none => rw [hu] at hv'; cases hv'
    | some u =>
      rw [hu] at hv'
      simp only [Option.bind_some] at hv'
      cases hs : cfg.sentinel u
      · rw [hs] at hv'
        simp only [Bool.false_eq_true, if_false, Option.some.injEq] at hv'
        subst hv'
        obtain ⟨w, hw1, hw2⟩ := attr_kept hc hk hw h hkk hn hu hs
        injection hw1 with hw1
        subst hw1
        exact ⟨_, hw2, shares_deep (hfresh k) hv⟩
      · rw [hs] at hv'
        cases hv'
  · cases hv'

/-- C261 (DataClass, exact): the same. -/
theorem C261_dataclass_partial (cfg : Cfg (Val α)) (hc : Sane cfg) (c : ParamCall.Decl (Val α)) (hk : c.names.Nodup)
    (new : String → Nat → Nat) (a : Attrs String (Val α)) (hfresh : ∀ k i k' v, (toDict cfg c.names a).get? k' = some v → new k i ∉ ids v)
    (kw : Dict String (Val α)) (hw : kw.WF) {a' : Attrs String (Val α)} (h : dcWithUpdates cfg c .deep new a kw = .ok a')
    (k : String) (hn : k ∉ kw.keys) (v : Val α) (hv : (toDict cfg c.names a).get? k = some v) :
    ∃ w, a'.get? k = some w ∧ (Shares w (toDict cfg c.names a) ↔ ¬ IsContainer v ∧ ids v ≠ []) := by
  have hv' := hv
  rw [get?_toDict] at hv'
  simp only [value] at hv'
  split at hv'
  · rename_i hkk
    cases hu : a.get? k with
    | none => rw [hu] at hv'; cases hv'
    | some u =>
      rw [hu] at hv'
      simp only [Option.bind_some] at hv'
      cases hs : cfg.sentinel u
      · rw [hs] at hv'
        simp only [Bool.false_eq_true, if_false, Option.some.injEq] at hv'
        subst hv'
        obtain ⟨w, hw1, hw2⟩ := attr_kept_dataclass hc hk hw h hkk hn hu hs
        injection hw1 with hw1
        subst hw1
        exact ⟨_, hw2, shares_deep (hfresh k) hv⟩
      · rw [hs] at hv'
        cases hv'
  · cases hv'

/-- C261 (effect): if a kept value is a mutable container, no modification of any object reachable from it in the new object, with any
contents, changes any value of the original. -/
theorem C261_independent_partial (cfg : Cfg (Val α)) (hc : Sane cfg) (keys : List φ) (hk : keys.Nodup) (new : φ → Nat → Nat)
    (a : Attrs φ (Val α)) (hfresh : ∀ k i k' v, (toDict cfg keys a).get? k' = some v → new k i ∉ ids v)
    (kw : Dict φ (Val α)) (hw : kw.WF) {a' : Attrs φ (Val α)} (h : withUpdates cfg keys .deep new a kw = .ok a')
    (k : φ) (hn : k ∉ kw.keys) (v : Val α) (hv : (toDict cfg keys a).get? k = some v) (hcon : IsContainer v)
    (w : Val α) (hwk : a'.get? k = some w) (i : Nat) (hi : i ∈ ids w) (items : Val α) (k' : φ) (v' : Val α)
    (hv' : (toDict cfg keys a).get? k' = some v') : write i items v' = v' := by
  obtain ⟨w', hw', he⟩ := C261_exact_partial cfg hc keys hk new a hfresh kw hw h k hn v hv
  rw [hwk] at hw'
  injection hw' with hw'
  subst hw'
  exact not_shares_write (fun hs => (he.1 hs).1 hcon) hi items hv'

/-! ### A concrete case -/

/-- Plain configuration over numbers; `atom 0` is `Unset`, `atom 1` is `Undefined`. -/
def demoCfg : Cfg (Val Nat) where
  sentinel v := decide (shape v = .atom 0) || decide (shape v = .atom 1)
  undefined v := decide (shape v = .atom 1)
  unset := .atom 0
  norm v := v
  strict := false
  prefill := true

theorem demo_sane : Sane demoCfg where
  sentinel v w h := by simp only [demoCfg, h]
  undefined v w h := by simp only [demoCfg, h]
  isSentinel v h := by simp only [demoCfg, Bool.or_eq_true] at h ⊢; exact Or.inr h
  norm v h := by simp only [demoCfg, Bool.or_eq_false_iff] at h ⊢; exact h.2

/-- Objects made by copying have large identities. -/
def demoNew (k : String) (i : Nat) : Nat := 100 + i

/-- `P(tags=[[5]], pair=([6],), n=7)`. -/
def demo : Attrs String (Val Nat) :=
  [("tags", .box .container 1 (.cons (.box .container 2 (.cons (.atom 5) .nil)) .nil)),
   ("pair", .imm (.cons (.box .container 3 (.cons (.atom 6) .nil)) .nil)), ("n", .atom 7)]

/-- C261 is false of the code: a list in a tuple is shared by the deep copy, and appending to it changes the original. -/
theorem C261_violation :
    (withUpdates demoCfg ["tags", "pair", "n"] .deep demoNew demo [("n", .atom 8)] = .ok
      [("tags", .box .container 101 (.cons (.box .container 102 (.cons (.atom 5) .nil)) .nil)),
       ("pair", .imm (.cons (.box .container 3 (.cons (.atom 6) .nil)) .nil)), ("n", .atom 8)]) ∧
    write 3 (.cons (.atom 6) (.cons (.atom 9) .nil)) (.imm (.cons (.box .container 3 (.cons (.atom 6) .nil)) .nil)) ≠
      (.imm (.cons (.box .container 3 (.cons (.atom 6) .nil)) .nil) : Val Nat) := by decide

theorem demo_fresh : ∀ (k : String) (i : Nat) (k' : String) (v : Val Nat),
    (toDict demoCfg ["tags", "pair", "n"] demo).get? k' = some v → demoNew k i ∉ ids v := by
  intro k i k' v hv
  have hm := Dict.mem_of_get? hv
  have he : toDict demoCfg ["tags", "pair", "n"] demo = demo := by decide
  rw [he] at hm
  simp only [demo, List.mem_cons, Prod.mk.injEq, List.not_mem_nil, or_false] at hm
  rcases hm with ⟨_, rfl⟩ | ⟨_, rfl⟩ | ⟨_, rfl⟩ <;> simp [ids, demoNew] <;> omega

example : withUpdates demoCfg ["tags", "pair", "n"] .shallow demoNew demo [("n", .atom 8)] = .ok
    [("tags", .box .container 101 (.cons (.box .container 2 (.cons (.atom 5) .nil)) .nil)),
     ("pair", .imm (.cons (.box .container 3 (.cons (.atom 6) .nil)) .nil)), ("n", .atom 8)] := by decide
example : withUpdates demoCfg ["tags"] .shallow demoNew [("tags", .box .noCopy 1 .nil)] [] = .error .attributeError := by decide

end Verif.CopyContainers
