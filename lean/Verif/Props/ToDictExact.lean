import Verif.Props.ToDictApi

set_option linter.unusedSectionVars false
set_option linter.unusedSimpArgs false
set_option linter.unusedVariables false

/-!
# C133, C134: exactly when the recursive conversion fails or changes nothing
-/

namespace Verif.ToDict

variable {κ α : Type} [DecidableEq κ]

/-- The items of `l`, each converted, are `l'`. -/
inductive Converts (f : V κ α → Except Exc (V κ α)) : List (V κ α) → List (V κ α) → Prop where
  | nil : Converts f [] []
  | cons (v w : V κ α) (l l' : List (V κ α)) : f v = .ok w → Converts f l l' → Converts f (v :: l) (w :: l')

/-- Within `n` steps through dicts, lists, tuples and sets there is a set whose converted members cannot be put into a set. -/
inductive BadSet (E : Env κ α) (custom : Bool) : Nat → V κ α → Prop where
  | dict (n : Nat) (d : List (κ × V κ α)) (k : κ) (v : V κ α) : (k, v) ∈ d → BadSet E custom n v → BadSet E custom (n + 1) (.dict d)
  | list (n : Nat) (l : List (V κ α)) (v : V κ α) : v ∈ l → BadSet E custom n v → BadSet E custom (n + 1) (.list l)
  | tuple (n : Nat) (l : List (V κ α)) (v : V κ α) : v ∈ l → BadSet E custom n v → BadSet E custom (n + 1) (.tuple l)
  | set (n : Nat) (l : List (V κ α)) (v : V κ α) : v ∈ l → BadSet E custom n v → BadSet E custom (n + 1) (.set l)
  | frozenset (n : Nat) (l : List (V κ α)) (v : V κ α) : v ∈ l → BadSet E custom n v → BadSet E custom (n + 1) (.frozenset l)
  | hereSet (n : Nat) (l l' : List (V κ α)) : Converts (pre E custom n) l l' → E.mkSet l' = none → BadSet E custom (n + 1) (.set l)
  | hereFrozen (n : Nat) (l l' : List (V κ α)) : Converts (pre E custom n) l l' → E.mkSet l' = none → BadSet E custom (n + 1) (.frozenset l)

theorem all_converts {f : V κ α → Except Exc (V κ α)} {l l' : List (V κ α)} : all f l = .ok l' ↔ Converts f l l' := by
  constructor
  · intro h
    induction l generalizing l' with
    | nil => cases h; exact .nil
    | cons v l ih =>
      simp only [all] at h
      cases hv : f v with
      | error e => rw [hv] at h; cases h
      | ok w =>
        rw [hv] at h
        simp only at h
        cases ha : all f l with
        | error e => rw [ha] at h; cases h
        | ok ws =>
          rw [ha] at h
          simp only [Except.ok.injEq] at h
          subst h
          exact .cons v w l ws hv (ih ha)
  · intro h
    induction h with
    | nil => rfl
    | cons v w l l' hv _ ih => simp only [all, hv, ih]

theorem all_fails {f : V κ α → Except Exc (V κ α)} {l : List (V κ α)} : (∃ e, all f l = .error e) ↔ ∃ v ∈ l, ∃ e, f v = .error e := by
  induction l with
  | nil => simp [all]
  | cons v l ih =>
    cases hv : f v with
    | error e => exact ⟨fun _ => ⟨v, List.mem_cons_self, e, hv⟩, fun _ => ⟨e, by simp only [all, hv]⟩⟩
    | ok w =>
      constructor
      · rintro ⟨e, h⟩
        simp only [all, hv] at h
        cases ha : all f l with
        | error e' =>
          rcases ih.1 ⟨e', ha⟩ with ⟨u, hu, e2, h2⟩
          exact ⟨u, List.mem_cons_of_mem _ hu, e2, h2⟩
        | ok ws => rw [ha] at h; cases h
      · rintro ⟨u, hu, e, h⟩
        rcases List.mem_cons.1 hu with rfl | hu
        · rw [hv] at h; cases h
        · rcases ih.2 ⟨u, hu, e, h⟩ with ⟨e', h'⟩
          exact ⟨e', by simp only [all, hv, h']⟩

theorem allValues_fails {f : V κ α → Except Exc (V κ α)} {d : List (κ × V κ α)} :
    (∃ e, allValues f d = .error e) ↔ ∃ kv ∈ d, ∃ e, f kv.2 = .error e := by
  induction d with
  | nil => simp [allValues]
  | cons kv l ih =>
    obtain ⟨k, v⟩ := kv
    cases hv : f v with
    | error e => exact ⟨fun _ => ⟨(k, v), List.mem_cons_self, e, hv⟩, fun _ => ⟨e, by simp only [allValues, hv]⟩⟩
    | ok w =>
      constructor
      · rintro ⟨e, h⟩
        simp only [allValues, hv] at h
        cases ha : allValues f l with
        | error e' =>
          rcases ih.1 ⟨e', ha⟩ with ⟨u, hu, e2, h2⟩
          exact ⟨u, List.mem_cons_of_mem _ hu, e2, h2⟩
        | ok ws => rw [ha] at h; cases h
      · rintro ⟨u, hu, e, h⟩
        rcases List.mem_cons.1 hu with rfl | hu
        · rw [hv] at h; cases h
        · rcases ih.2 ⟨u, hu, e, h⟩ with ⟨e', h'⟩
          exact ⟨e', by simp only [allValues, hv, h']⟩

theorem wrapSet_fails {mk : List (V κ α) → Option (List (V κ α))} {g : List (V κ α) → V κ α} {f : V κ α → Except Exc (V κ α)} {l : List (V κ α)} :
    (∃ e, wrapSet mk g (all f l) = .error e) ↔ (∃ v ∈ l, ∃ e, f v = .error e) ∨ ∃ l', Converts f l l' ∧ mk l' = none := by
  cases ha : all f l with
  | error e =>
    exact ⟨fun _ => .inl (all_fails.1 ⟨e, ha⟩), fun _ => ⟨e, rfl⟩⟩
  | ok ws =>
    constructor
    · rintro ⟨e, h⟩
      cases hm : mk ws with
      | none => exact .inr ⟨ws, all_converts.1 ha, hm⟩
      | some s => simp only [wrapSet, hm] at h; cases h
    · rintro (h | ⟨l', hc, hm⟩)
      · rcases all_fails.2 h with ⟨e, he⟩
        rw [ha] at he; cases he
      · have := all_converts.2 hc
        rw [ha] at this
        cases this
        exact ⟨.typeError, by simp only [wrapSet, hm]⟩

theorem pre_fails (E : Env κ α) (custom : Bool) (n : Nat) (v : V κ α) : (∃ e, pre E custom n v = .error e) ↔ BadSet E custom n v := by
  induction n generalizing v with
  | zero => exact ⟨fun ⟨e, h⟩ => (by cases h), fun h => (by cases h)⟩
  | succ n ih =>
    cases v with
    | str s =>
      obtain ⟨w, hw⟩ := orElse_ok (.str s) (andThen (pre E custom n) (E.parseIn s))
      exact ⟨fun ⟨e, h⟩ => (by simp only [pre, hw] at h; cases h), fun h => (by cases h)⟩
    | enum d =>
      obtain ⟨w, hw⟩ := orElse_ok (.enum d) (pre E custom n (.dict d))
      exact ⟨fun ⟨e, h⟩ => (by simp only [pre, hw] at h; cases h), fun h => (by cases h)⟩
    | obj o =>
      obtain ⟨w, hw⟩ := orElse_ok (.obj o) (andThen (pre E custom n) (E.mapping o))
      exact ⟨fun ⟨e, h⟩ => (by simp only [pre, hw] at h; split at h <;> cases h), fun h => (by cases h)⟩
    | none => exact ⟨fun ⟨e, h⟩ => (by cases h), fun h => (by cases h)⟩
    | atom a => exact ⟨fun ⟨e, h⟩ => (by cases h), fun h => (by cases h)⟩
    | dict d =>
      constructor
      · rintro ⟨e, h⟩
        simp only [pre] at h
        cases ha : allValues (pre E custom n) d with
        | ok ws => rw [ha] at h; cases h
        | error e' =>
          rcases allValues_fails.1 ⟨e', ha⟩ with ⟨⟨k, v⟩, hm, he⟩
          exact .dict n d k v hm ((ih v).1 he)
      · intro h
        cases h with
        | dict _ _ k v hm hb =>
          rcases allValues_fails.2 ⟨(k, v), hm, (ih v).2 hb⟩ with ⟨e, he⟩
          exact ⟨e, by simp only [pre, he, wrapDict]⟩
    | list l =>
      constructor
      · rintro ⟨e, h⟩
        simp only [pre] at h
        cases ha : all (pre E custom n) l with
        | ok ws => rw [ha] at h; cases h
        | error e' =>
          rcases all_fails.1 ⟨e', ha⟩ with ⟨v, hm, he⟩
          exact .list n l v hm ((ih v).1 he)
      · intro h
        cases h with
        | list _ _ v hm hb =>
          rcases all_fails.2 ⟨v, hm, (ih v).2 hb⟩ with ⟨e, he⟩
          exact ⟨e, by simp only [pre, he, wrap]⟩
    | tuple l =>
      constructor
      · rintro ⟨e, h⟩
        simp only [pre] at h
        cases ha : all (pre E custom n) l with
        | ok ws => rw [ha] at h; cases h
        | error e' =>
          rcases all_fails.1 ⟨e', ha⟩ with ⟨v, hm, he⟩
          exact .tuple n l v hm ((ih v).1 he)
      · intro h
        cases h with
        | tuple _ _ v hm hb =>
          rcases all_fails.2 ⟨v, hm, (ih v).2 hb⟩ with ⟨e, he⟩
          exact ⟨e, by simp only [pre, he, wrap]⟩
    | set l =>
      simp only [pre]
      rw [wrapSet_fails]
      constructor
      · rintro (⟨v, hm, he⟩ | ⟨l', hc, hk⟩)
        · exact .set n l v hm ((ih v).1 he)
        · exact .hereSet n l l' hc hk
      · intro h
        cases h with
        | set _ _ v hm hb => exact .inl ⟨v, hm, (ih v).2 hb⟩
        | hereSet _ _ l' hc hk => exact .inr ⟨l', hc, hk⟩
    | frozenset l =>
      simp only [pre]
      rw [wrapSet_fails]
      constructor
      · rintro (⟨v, hm, he⟩ | ⟨l', hc, hk⟩)
        · exact .frozenset n l v hm ((ih v).1 he)
        · exact .hereFrozen n l l' hc hk
      · intro h
        cases h with
        | frozenset _ _ v hm hb => exact .inl ⟨v, hm, (ih v).2 hb⟩
        | hereFrozen _ _ l' hc hk => exact .inr ⟨l', hc, hk⟩

/-- **C134**, exactly.  The recursive conversion of a dict raises — then `TypeError` — if and only if within the depth limit there is a set one of
whose members is converted to something that cannot be a member of a set; otherwise it returns a dict. -/
theorem C134_exact_partial (E : Env κ α) (pythonOnly : Bool) (depth : DepthArg) (n : Nat) (hn : depthOf depth = .ok n) (d : List (κ × V κ α)) :
    (toDict E false true pythonOnly depth (.dict d) = .error .typeError ↔ BadSet E (!pythonOnly) n (.dict d)) ∧
    ((∃ d', toDict E false true pythonOnly depth (.dict d) = .ok (.dict d')) ↔ ¬ BadSet E (!pythonOnly) n (.dict d)) := by
  have hp := pre_fails E (!pythonOnly) n (.dict d)
  cases hx : pre E (!pythonOnly) n (.dict d) with
  | error e =>
    have hb := hp.1 ⟨e, hx⟩
    have he : e = .typeError := pre_error E _ n _ e hx
    have ht : toDict E false true pythonOnly depth (.dict d) = .error .typeError := by
      unfold toDict body
      rw [hn]
      simp only [if_true, hx, he, isEmptyStr, Bool.or_self, Bool.false_eq_true, if_false]
    refine ⟨⟨fun _ => hb, fun _ => ht⟩, ⟨fun ⟨d', h⟩ => ?_, fun h => absurd hb h⟩⟩
    rw [ht] at h; cases h
  | ok w =>
    have hb : ¬ BadSet E (!pythonOnly) n (.dict d) := by
      intro h
      rcases hp.2 h with ⟨e, he⟩
      rw [hx] at he; cases he
    obtain ⟨d', rfl⟩ := pre_dict hx
    have ht : toDict E false true pythonOnly depth (.dict d) = .ok (.dict d') := by
      unfold toDict body
      rw [hn]
      simp only [if_true, hx, topLevel]
    refine ⟨⟨fun h => ?_, fun h => absurd h hb⟩, ⟨fun _ => hb, fun _ => ⟨d', ht⟩⟩⟩
    rw [ht] at h; cases h

example : BadSet sampleEnv false 5 (.dict [(1, .set [.str ['{', '}']])]) :=
  .dict 4 _ 1 _ List.mem_cons_self (.hereSet 3 _ [.dict []] (.cons _ _ _ _ rfl .nil) rfl)

/-! ### C133 -/

/-- Nothing reached within `n` steps is rewritten: a text is not read as JSON, or read as something whose conversion fails or is the text again; an
enum class has members that cannot be converted; likewise an object; the members of a set are converted to members of the same set. -/
def Kept (E : Env κ α) (custom : Bool) : Nat → V κ α → Prop
  | 0, _ => True
  | n + 1, .str s => ∀ w u, E.parseIn s = some w → pre E custom n w = .ok u → u = .str s
  | n + 1, .dict d => ∀ kv ∈ d, Kept E custom n kv.2
  | n + 1, .list l => ∀ v ∈ l, Kept E custom n v
  | n + 1, .tuple l => ∀ v ∈ l, Kept E custom n v
  | n + 1, .set l => ∃ l', Converts (pre E custom n) l l' ∧ E.mkSet l' = some l
  | n + 1, .frozenset l => ∃ l', Converts (pre E custom n) l l' ∧ E.mkSet l' = some l
  | n + 1, .enum d => BadSet E custom n (.dict d)
  | n + 1, .obj o => custom = true → ∀ w u, E.mapping o = some w → pre E custom n w = .ok u → u = .obj o
  | _ + 1, .none => True
  | _ + 1, .atom _ => True

theorem converts_self {f : V κ α → Except Exc (V κ α)} {l : List (V κ α)} : all f l = .ok l ↔ ∀ v ∈ l, f v = .ok v := by
  induction l with
  | nil => simp [all]
  | cons v l ih =>
    constructor
    · intro h
      have hc := all_converts.1 h
      cases hc with
      | cons _ _ _ _ hv hl =>
        have := ih.1 (all_converts.2 hl)
        intro u hu
        rcases List.mem_cons.1 hu with rfl | hu
        · exact hv
        · exact this u hu
    · intro h
      simp only [all, h v List.mem_cons_self, ih.2 (fun u hu => h u (List.mem_cons_of_mem _ hu))]

theorem allValues_self {f : V κ α → Except Exc (V κ α)} {d : List (κ × V κ α)} : allValues f d = .ok d ↔ ∀ kv ∈ d, f kv.2 = .ok kv.2 := by
  induction d with
  | nil => simp [allValues]
  | cons kv l ih =>
    obtain ⟨k, v⟩ := kv
    constructor
    · intro h
      simp only [allValues] at h
      cases hv : f v with
      | error e => rw [hv] at h; cases h
      | ok w =>
        rw [hv] at h
        simp only at h
        cases ha : allValues f l with
        | error e => rw [ha] at h; cases h
        | ok ws =>
          rw [ha] at h
          simp only [Except.ok.injEq, List.cons.injEq, Prod.mk.injEq, true_and] at h
          obtain ⟨h1, h2⟩ := h
          subst h1; subst h2
          intro u hu
          rcases List.mem_cons.1 hu with rfl | hu
          · exact hv
          · exact ih.1 ha u hu
    · intro h
      have h1 := h (k, v) List.mem_cons_self
      simp only at h1
      simp only [allValues, h1, ih.2 (fun u hu => h u (List.mem_cons_of_mem _ hu))]

theorem orElse_self {v : V κ α} {f : V κ α → Except Exc (V κ α)} {o : Option (V κ α)} :
    orElse v (andThen f o) = .ok v ↔ ∀ w u, o = some w → f w = .ok u → u = v := by
  cases o with
  | none => exact ⟨fun _ => nofun, fun _ => rfl⟩
  | some w =>
    cases hw : f w with
    | error e =>
      refine ⟨fun _ w' u h1 h2 => ?_, fun _ => by simp only [andThen, hw, orElse]⟩
      injection h1 with h1
      rw [← h1, hw] at h2; cases h2
    | ok u =>
      constructor
      · intro h w' u' h1 h2
        injection h1 with h1
        simp only [andThen, hw, orElse, Except.ok.injEq] at h
        rw [← h1, hw] at h2
        injection h2 with h2
        rw [← h2, h]
      · intro h
        simp only [andThen, hw, orElse, h w u rfl hw]

theorem wrapSet_self {mk : List (V κ α) → Option (List (V κ α))} {g : List (V κ α) → V κ α} (hg : ∀ a b, g a = g b → a = b)
    {f : V κ α → Except Exc (V κ α)} {l : List (V κ α)} :
    wrapSet mk g (all f l) = .ok (g l) ↔ ∃ l', Converts f l l' ∧ mk l' = some l := by
  cases ha : all f l with
  | error e =>
    refine ⟨nofun, fun ⟨l', hc, _⟩ => ?_⟩
    rw [all_converts.2 hc] at ha; cases ha
  | ok ws =>
    constructor
    · intro h
      cases hm : mk ws with
      | none => simp only [wrapSet, hm] at h; cases h
      | some s =>
        simp only [wrapSet, hm, Except.ok.injEq] at h
        exact ⟨ws, all_converts.1 ha, by rw [hm, hg _ _ h]⟩
    · rintro ⟨l', hc, hm⟩
      have := all_converts.2 hc
      rw [ha] at this
      cases this
      simp only [wrapSet, hm]

theorem pre_self (E : Env κ α) (custom : Bool) (n : Nat) (v : V κ α) : pre E custom n v = .ok v ↔ Kept E custom n v := by
  induction n generalizing v with
  | zero => exact ⟨fun _ => trivial, fun _ => rfl⟩
  | succ n ih =>
    cases v with
    | str s => simp only [pre, Kept]; exact orElse_self
    | none => exact ⟨fun _ => trivial, fun _ => rfl⟩
    | atom a => exact ⟨fun _ => trivial, fun _ => rfl⟩
    | enum d =>
      simp only [pre, Kept]
      cases hp : pre E custom n (.dict d) with
      | error e => exact ⟨fun _ => (pre_fails E custom n _).1 ⟨e, hp⟩, fun _ => rfl⟩
      | ok w =>
        constructor
        · intro h
          obtain ⟨d', rfl⟩ := pre_dict hp
          simp [orElse] at h
        · intro h
          rcases (pre_fails E custom n _).2 h with ⟨e, he⟩
          rw [hp] at he; cases he
    | obj o =>
      simp only [pre, Kept]
      cases custom with
      | false => exact ⟨fun _ => nofun, fun _ => rfl⟩
      | true =>
        rw [if_pos rfl]
        exact orElse_self.trans ⟨fun h _ => h, fun h => h rfl⟩
    | dict d =>
      simp only [pre, Kept]
      have : wrapDict (allValues (pre E custom n) d) = .ok (.dict d) ↔ allValues (pre E custom n) d = .ok d := by
        cases allValues (pre E custom n) d with
        | error e => exact ⟨nofun, nofun⟩
        | ok x => simp [wrapDict]
      rw [this, allValues_self]
      exact ⟨fun h kv hkv => (ih _).1 (h kv hkv), fun h kv hkv => (ih _).2 (h kv hkv)⟩
    | list l =>
      simp only [pre, Kept]
      have : wrap V.list (all (pre E custom n) l) = .ok (.list l) ↔ all (pre E custom n) l = .ok l := by
        cases all (pre E custom n) l with
        | error e => exact ⟨nofun, nofun⟩
        | ok x => simp [wrap]
      rw [this, converts_self]
      exact ⟨fun h v hv => (ih _).1 (h v hv), fun h v hv => (ih _).2 (h v hv)⟩
    | tuple l =>
      simp only [pre, Kept]
      have : wrap V.tuple (all (pre E custom n) l) = .ok (.tuple l) ↔ all (pre E custom n) l = .ok l := by
        cases all (pre E custom n) l with
        | error e => exact ⟨nofun, nofun⟩
        | ok x => simp [wrap]
      rw [this, converts_self]
      exact ⟨fun h v hv => (ih _).1 (h v hv), fun h v hv => (ih _).2 (h v hv)⟩
    | set l => simp only [pre, Kept]; exact wrapSet_self (fun a b h => by injection h)
    | frozenset l => simp only [pre, Kept]; exact wrapSet_self (fun a b h => by injection h)

/-- **C133**, exactly, for contents that are dicts: the content is written unchanged if and only if nothing within five steps is rewritten. -/
theorem C133_exact_partial (E : Env κ α) (d : List (κ × V κ α)) : serializeContent E (.dict d) = .ok (.dict d) ↔ Kept E true 5 (.dict d) := by
  rw [← pre_self]
  unfold serializeContent toDict body depthOf
  simp only [Bool.not_false, if_true]
  cases hp : pre E true 5 (.dict d) with
  | error e => simp [isEmptyStr]
  | ok w =>
    obtain ⟨d', rfl⟩ := pre_dict hp
    simp [topLevel]

/-- **C133**: contents that are no dicts are never written unchanged: nothing, numbers, lists, tuples, sets. -/
theorem C133_nondict_partial (E : Env κ α) (a : α) (l : List (V κ α)) :
    serializeContent E .none ≠ .ok .none ∧ serializeContent E (.atom a) ≠ .ok (.atom a) ∧ serializeContent E (.list l) ≠ .ok (.list l) ∧
    serializeContent E (.tuple l) ≠ .ok (.tuple l) ∧ serializeContent E (.set l) ≠ .ok (.set l) ∧ serializeContent E (.frozenset l) ≠ .ok (.frozenset l) := by
  refine ⟨nofun, nofun, ?_, ?_, ?_, ?_⟩
  · unfold serializeContent toDict body depthOf
    simp only [Bool.not_false, if_true, pre]
    cases all (pre E true 4) l <;> simp [wrap, topLevel, enumerate, isEmptyStr]
  · unfold serializeContent toDict body depthOf
    simp only [Bool.not_false, if_true, pre]
    cases all (pre E true 4) l <;> simp [wrap, topLevel, enumerate, isEmptyStr]
  · unfold serializeContent toDict body depthOf
    simp only [Bool.not_false, if_true, pre]
    cases all (pre E true 4) l with
    | error e => simp [wrapSet, isEmptyStr]
    | ok x => cases hm : E.mkSet x <;> simp [wrapSet, hm, topLevel, isEmptyStr]
  · unfold serializeContent toDict body depthOf
    simp only [Bool.not_false, if_true, pre]
    cases all (pre E true 4) l with
    | error e => simp [wrapSet, isEmptyStr]
    | ok x =>
      cases hm : E.mkSet x with
      | none => simp [wrapSet, hm, isEmptyStr]
      | some y =>
        simp only [wrapSet, hm, topLevel, frozen]
        cases E.pairs y <;> simp [enumerate]

example : Kept sampleEnv true 5 (V.dict [(1, .list [.str ['a'], .atom 3])]) := by
  simp [Kept, sampleEnv, Env.parseIn]
example : ¬ Kept sampleEnv true 5 (V.dict [(1, .str ['7'])]) := by
  intro h
  have := h (1, .str ['7']) List.mem_cons_self (.atom 7) (.atom 7) rfl rfl
  cases this

end Verif.ToDict
