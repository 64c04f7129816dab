import Verif.Props.ToDict

/-!
# C223: what `to_dict` returns; kinds of failure for C134
-/

set_option linter.unusedSectionVars false
set_option linter.unusedSimpArgs false
set_option linter.unusedVariables false

namespace Verif.ToDict

variable {κ α : Type} [DecidableEq κ]

/-! ## Specification vocabulary -/

/-- The value is a dict. -/
def IsDict (w : V κ α) : Prop := ∃ d, w = .dict d

/-- `d` numbers the items of `l` from 0. -/
def Numbered (E : Env κ α) (l : List (V κ α)) (d : List (κ × V κ α)) : Prop :=
  d.length = l.length ∧ ∀ i v, l[i]? = some v → d[i]? = some (E.position i, v)

/-- What an object converts to, as a dict: a mapping as it is, a text if it parses, a list, tuple or set numbered. -/
def Becomes (E : Env κ α) (c w : V κ α) : Prop :=
  (∃ d, c = .dict d ∧ w = .dict d) ∨ (∃ s, c = .str s ∧ E.json s = some w) ∨
  ∃ l d, (c = .list l ∨ c = .tuple l ∨ c = .set l ∨ c = .frozenset l) ∧ Numbered E l d ∧ w = .dict d

/-- What `to_dict(v)` returns, kind by kind. -/
def Returns (E : Env κ α) (v w : V κ α) : Prop :=
  (∃ d, (v = .dict d ∨ v = .enum d) ∧ w = .dict d) ∨ (v = .none ∧ w = .dict []) ∨
  (∃ l, v = .set l ∧ w = .dict (l.map (fun x => (E.same x, x)))) ∨
  (∃ l d, (v = .list l ∨ v = .tuple l ∨ (v = .frozenset l ∧ E.pairs l = none)) ∧ Numbered E l d ∧ w = .dict d) ∨
  (∃ l d, v = .frozenset l ∧ E.pairs l = some d ∧ w = .dict d) ∨
  (∃ s, v = .str s ∧ E.parse s = some w) ∨
  ∃ o c, v = .obj o ∧ E.mapping o = some c ∧ Becomes E c w

/-! ## Helpers -/

theorem enumerate_numbered (E : Env κ α) (l : List (V κ α)) : ∃ d, enumerate E l = .dict d ∧ Numbered E l d := by
  refine ⟨_, rfl, by simp, ?_⟩
  intro i v h
  rw [List.getElem?_mapIdx, h]; rfl

theorem numbered_unique {E : Env κ α} {l : List (V κ α)} {d d' : List (κ × V κ α)} (h : Numbered E l d) (h' : Numbered E l d') : d = d' := by
  apply List.ext_getElem?
  intro i
  by_cases hi : i < l.length
  · have hv : l[i]? = some l[i] := List.getElem?_eq_getElem hi
    rw [h.2 i _ hv, h'.2 i _ hv]
  · rw [List.getElem?_eq_none (by rw [h.1]; omega), List.getElem?_eq_none (by rw [h'.1]; omega)]

theorem numbered_iff (E : Env κ α) (l : List (V κ α)) (w : V κ α) : enumerate E l = w ↔ ∃ d, Numbered E l d ∧ w = .dict d := by
  obtain ⟨d, h1, h2⟩ := enumerate_numbered E l
  constructor
  · rintro rfl; exact ⟨d, h2, h1⟩
  · rintro ⟨d', h3, rfl⟩; rw [h1, numbered_unique h2 h3]

theorem converted_iff (E : Env κ α) (c w : V κ α) : converted E c = some w ↔ Becomes E c w := by
  cases c with
  | dict d => simp [converted, Becomes, eq_comm]
  | str s => simp [converted, Becomes]
  | list l => simp [converted, Becomes, numbered_iff]
  | tuple l => simp [converted, Becomes, numbered_iff]
  | set l => simp [converted, Becomes, numbered_iff]
  | frozenset l => simp [converted, Becomes, numbered_iff]
  | none => simp [converted, Becomes]
  | atom a => simp [converted, Becomes]
  | enum d => simp [converted, Becomes]
  | obj o => simp [converted, Becomes]

theorem raiseIfNone_ok {o : Option (V κ α)} {w : V κ α} : raiseIfNone o = .ok w ↔ o = some w := by
  cases o <;> simp [raiseIfNone]

theorem raiseParse_ok {o : Option (V κ α)} {w : V κ α} : raiseParse o = .ok w ↔ o = some w := by
  cases o <;> simp [raiseParse]

theorem frozen_cases (E : Env κ α) (l : List (V κ α)) :
    (∃ d, E.pairs l = some d ∧ frozen E l = .dict d) ∨ (E.pairs l = none ∧ frozen E l = enumerate E l) := by
  unfold frozen
  cases E.pairs l with
  | some d => exact Or.inl ⟨d, rfl, rfl⟩
  | none => exact Or.inr ⟨rfl, rfl⟩

theorem topLevel_iff (E : Env κ α) (v w : V κ α) : topLevel E v = .ok w ↔ Returns E v w := by
  cases v with
  | str s => simp [topLevel, raiseParse_ok, Returns]
  | none => simp [topLevel, Returns, eq_comm]
  | atom a => simp [topLevel, Returns]
  | dict d => simp [topLevel, Returns, eq_comm]
  | enum d => simp [topLevel, Returns, eq_comm]
  | list l => simp [topLevel, Returns, numbered_iff]
  | tuple l => simp [topLevel, Returns, numbered_iff]
  | set l => simp [topLevel, Returns, eq_comm]
  | frozenset l =>
    rcases frozen_cases E l with ⟨d, h1, h2⟩ | ⟨h1, h2⟩
    · simp [topLevel, Returns, h1, h2, eq_comm]
    · simp only [topLevel, h2, Except.ok.injEq, numbered_iff]; simp [Returns, and_assoc, h1]
  | obj o =>
    simp only [topLevel, raiseIfNone_ok, Option.bind_eq_some_iff, converted_iff]
    constructor
    · rintro ⟨c, h1, h2⟩; exact Or.inr (Or.inr (Or.inr (Or.inr (Or.inr (Or.inr ⟨o, c, rfl, h1, h2⟩)))))
    · intro h
      simp only [Returns, reduceCtorEq, false_and, or_self, exists_false, false_or, V.obj.injEq] at h
      obtain ⟨o', c, rfl, h1, h2⟩ := h
      exact ⟨c, h1, h2⟩

theorem topLevel_error (E : Env κ α) (v : V κ α) (e : Exc) : topLevel E v = .error e ↔
    ((∃ s, v = .str s ∧ E.parse s = none) ∧ e = .valueError) ∨
    (((∃ a, v = .atom a) ∨ ∃ o, v = .obj o ∧ ∀ c, E.mapping o = some c → ∀ w, ¬ Becomes E c w) ∧ e = .typeError) := by
  cases v with
  | str s =>
    cases h : E.parse s <;> simp [topLevel, raiseParse, h, eq_comm]
  | atom a => simp [topLevel, eq_comm]
  | obj o =>
    simp only [topLevel, reduceCtorEq, false_and, exists_false, false_or, V.obj.injEq]
    cases hm : (E.mapping o).bind (converted E) with
    | some w =>
      obtain ⟨c, h1, h2⟩ := Option.bind_eq_some_iff.1 hm
      simp only [raiseIfNone, reduceCtorEq, false_iff]
      rintro ⟨⟨o', rfl, h⟩, -⟩
      exact h c h1 w ((converted_iff E c w).1 h2)
    | none =>
      simp only [raiseIfNone, Except.error.injEq]
      constructor
      · rintro rfl
        refine ⟨⟨o, rfl, ?_⟩, rfl⟩
        intro c hc w hw
        rw [hc, Option.bind_some, (converted_iff E c w).2 hw] at hm; cases hm
      · rintro ⟨-, h⟩; exact h.symm
  | _ => simp [topLevel]

/-! ## C223 -/

/-- C223: what `to_dict(v)` without recursion returns, for every kind of value. -/
theorem C223_returns_partial (E : Env κ α) (pythonOnly : Bool) (depth : DepthArg) (n : Nat) (hn : depthOf depth = .ok n) (v w : V κ α) :
    toDict E false false pythonOnly depth v = .ok w ↔ Returns E v w ∨ (v = .str [] ∧ E.parse [] = none ∧ w = .dict []) := by
  unfold toDict body
  simp only [hn, Bool.false_eq_true, if_false, Bool.false_or]
  cases ht : topLevel E v with
  | ok x =>
    have hr := (topLevel_iff E v x).1 ht
    simp only [Except.ok.injEq]
    constructor
    · rintro rfl; exact Or.inl hr
    · rintro (h | ⟨rfl, h, rfl⟩)
      · rw [(topLevel_iff E v w).2 h] at ht; exact (Except.ok.inj ht).symm
      · simp [topLevel, h, raiseParse] at ht
  | error e =>
    simp only
    have hno : ¬ Returns E v w := by
      intro h; rw [(topLevel_iff E v w).2 h] at ht; cases ht
    by_cases hv : v = .str []
    · subst hv
      simp only [isEmptyStr, if_true, Except.ok.injEq]
      constructor
      · rintro rfl
        refine Or.inr ⟨trivial, ?_, rfl⟩
        cases hp : E.parse [] with
        | none => rfl
        | some x => simp [topLevel, hp, raiseParse] at ht
      · rintro (h | ⟨-, -, rfl⟩)
        · exact absurd h hno
        · rfl
    · have : isEmptyStr v = false := by
        cases v with
        | str s => cases s with
          | nil => exact absurd rfl hv
          | cons c s => rfl
        | _ => rfl
      rw [this]
      simp only [Bool.false_eq_true, if_false, reduceCtorEq, false_iff, not_or]
      exact ⟨hno, fun h => hv h.1⟩

/-- C223: when it raises: ValueError for a text that does not parse and for a bad depth, TypeError for what has no dict form. -/
theorem C223_errors_partial (E : Env κ α) (pythonOnly : Bool) (depth : DepthArg) (v : V κ α) (e : Exc) :
    toDict E false false pythonOnly depth v = .error e ↔ v ≠ .str [] ∧
      (((∃ i, depth = .int i ∧ (i < 0 ∨ 10 < i)) ∧ e = .valueError) ∨
       ((∀ i, depth = .int i → 0 ≤ i ∧ i ≤ 10) ∧ (((∃ s, v = .str s ∧ E.parse s = none) ∧ e = .valueError) ∨
         (((∃ a, v = .atom a) ∨ ∃ o, v = .obj o ∧ ∀ c, E.mapping o = some c → ∀ w, ¬ Becomes E c w) ∧ e = .typeError)))) := by
  have hempty : isEmptyStr v = true ↔ v = .str [] := by
    cases v with
    | str s => cases s <;> simp [isEmptyStr]
    | _ => simp [isEmptyStr]
  unfold toDict body
  have hdep : (∃ i, depth = .int i ∧ (i < 0 ∨ 10 < i) ∧ depthOf depth = .error .valueError) ∨
      ((∀ i, depth = .int i → 0 ≤ i ∧ i ≤ 10) ∧ ∃ n, depthOf depth = .ok n) := by
    cases depth with
    | other => exact Or.inr ⟨fun i h => (by cases h), 5, rfl⟩
    | int i =>
      simp only [depthOf]
      by_cases h1 : i < 0
      · left; exact ⟨i, rfl, Or.inl h1, by rw [if_pos h1]⟩
      · by_cases h2 : i > 10
        · left; exact ⟨i, rfl, Or.inr h2, by rw [if_neg h1, if_pos h2]⟩
        · right
          refine ⟨fun j hj => ?_, i.toNat, by rw [if_neg h1, if_neg h2]⟩
          cases hj; omega
  rcases hdep with ⟨i, hi, hb, hd⟩ | ⟨hok, n, hd⟩
  · rw [hd]
    simp only [Bool.false_or]
    by_cases hv : isEmptyStr v = true
    · rw [if_pos hv]
      simp only [reduceCtorEq, false_iff, not_and]
      intro h; exact absurd (hempty.1 hv) h
    · rw [if_neg hv]
      simp only [Except.error.injEq]
      constructor
      · rintro rfl; exact ⟨fun h => hv (hempty.2 h), Or.inl ⟨⟨i, hi, hb⟩, rfl⟩⟩
      · rintro ⟨-, ⟨-, he⟩ | ⟨h, -⟩⟩
        · exact he.symm
        · have := h i hi; omega
  · rw [hd]
    simp only [Bool.false_eq_true, if_false, Bool.false_or]
    have hbad : ¬ ∃ i, depth = .int i ∧ (i < 0 ∨ 10 < i) := by
      rintro ⟨i, hi, hb⟩; have := hok i hi; omega
    cases ht : topLevel E v with
    | ok x =>
      simp only [reduceCtorEq, false_iff, not_and, not_or]
      intro _
      refine ⟨fun h => absurd h hbad, fun _ => ?_⟩
      have := fun e => mt (topLevel_error E v e).2 (by rw [ht]; simp)
      exact not_or.1 (this e) |>.imp (fun h h1 h2 => h ⟨h1, h2⟩) (fun h h1 h2 => h ⟨h1, h2⟩)
    | error e' =>
      have hte := (topLevel_error E v e').1 ht
      simp only
      by_cases hv : isEmptyStr v = true
      · rw [if_pos hv]
        simp only [reduceCtorEq, false_iff, not_and]
        intro h; exact absurd (hempty.1 hv) h
      · rw [if_neg hv]
        simp only [Except.error.injEq]
        constructor
        · rintro rfl; exact ⟨fun h => hv (hempty.2 h), Or.inr ⟨hok, hte⟩⟩
        · rintro ⟨-, ⟨h, -⟩ | ⟨-, h⟩⟩
          · exact absurd h hbad
          · have := (topLevel_error E v e).2 h
            rw [ht] at this; exact Except.error.inj this

/-- C223: with `suppress=True` it never raises: it returns what it returns without, and `{}` where that raises. -/
theorem C223_suppress (E : Env κ α) (recursive pythonOnly : Bool) (depth : DepthArg) (v : V κ α) :
    (∀ w, toDict E false recursive pythonOnly depth v = .ok w → toDict E true recursive pythonOnly depth v = .ok w) ∧
    (∀ e, toDict E false recursive pythonOnly depth v = .error e → toDict E true recursive pythonOnly depth v = .ok (.dict [])) := by
  unfold toDict
  cases body E recursive pythonOnly depth v with
  | ok x => simp
  | error e =>
    simp only [Bool.false_or, Bool.true_or, if_true]
    constructor
    · intro w h
      split at h
      · exact h
      · cases h
    · intro _ _; trivial

/-- C223: the result is a dict, unless it is what a text (the input, or what an object or an earlier text turned into) parses to.  The full claim has no exception. -/
theorem C223_dict_partial (E : Env κ α) (suppress recursive pythonOnly : Bool) (depth : DepthArg) (v w : V κ α)
    (h : toDict E suppress recursive pythonOnly depth v = .ok w) : IsDict w ∨ ∃ s, E.parse s = some w ∨ E.json s = some w := by
  have top : ∀ v, topLevel E v = .ok w → IsDict w ∨ ∃ s, E.parse s = some w ∨ E.json s = some w := by
    intro v hv
    rcases (topLevel_iff E v w).1 hv with ⟨d, -, rfl⟩ | ⟨-, rfl⟩ | ⟨l, -, rfl⟩ | ⟨l, d, -, -, rfl⟩ | ⟨l, d, -, -, rfl⟩ | ⟨s, -, hs⟩ | ⟨o, c, -, -, hb⟩
    · exact Or.inl ⟨_, rfl⟩
    · exact Or.inl ⟨_, rfl⟩
    · exact Or.inl ⟨_, rfl⟩
    · exact Or.inl ⟨_, rfl⟩
    · exact Or.inl ⟨_, rfl⟩
    · exact Or.inr ⟨s, Or.inl hs⟩
    · rcases hb with ⟨d, -, rfl⟩ | ⟨s, -, hs⟩ | ⟨l, d, -, -, rfl⟩
      · exact Or.inl ⟨_, rfl⟩
      · exact Or.inr ⟨s, Or.inr hs⟩
      · exact Or.inl ⟨_, rfl⟩
  unfold toDict at h
  cases hb : body E recursive pythonOnly depth v with
  | error e =>
    rw [hb] at h
    simp only at h
    split at h
    · exact Or.inl ⟨[], (Except.ok.inj h).symm⟩
    · cases h
  | ok x =>
    rw [hb] at h
    have hx : x = w := Except.ok.inj h
    subst hx
    unfold body at hb
    cases hd : depthOf depth with
    | error e => rw [hd] at hb; cases hb
    | ok n =>
      rw [hd] at hb
      simp only at hb
      split at hb
      · cases hp : pre E (!pythonOnly) n v with
        | error e => rw [hp] at hb; cases hb
        | ok y => rw [hp] at hb; exact top y hb
      · exact top v hb

theorem body_dict {E : Env κ α} {pythonOnly : Bool} {depth : DepthArg} {n : Nat} (hn : depthOf depth = .ok n) {d : List (κ × V κ α)} {w : V κ α}
    (h : toDict E false true pythonOnly depth (.dict d) = .ok w) : pre E (!pythonOnly) n (.dict d) = .ok w := by
  unfold toDict body at h
  rw [hn] at h
  simp only [if_true] at h
  cases hp : pre E (!pythonOnly) n (.dict d) with
  | error e => rw [hp] at h; simp [isEmptyStr] at h
  | ok x =>
    rw [hp] at h
    obtain ⟨d', rfl⟩ := pre_dict hp
    simp only [topLevel, Except.ok.injEq] at h
    rw [← h]

/-- C223: recursion reads texts: above the depth limit a text that parses to `u` (with nothing left to rewrite inside) is replaced by `u`, and one
that does not parse stays. -/
theorem C223_texts (E : Env κ α) (pythonOnly : Bool) (depth : DepthArg) (n : Nat) (hn : depthOf depth = .ok n) (d : List (κ × V κ α)) (w : V κ α)
    (h : toDict E false true pythonOnly depth (.dict d) = .ok w) (p : List (Step κ)) (s : List Char) (hp : at? (.dict d) p = some (.str s)) (hlt : p.length < n) :
    (E.parseIn s = none → at? w p = some (.str s)) ∧
    (∀ u, E.parseIn s = some u → Inert E (!pythonOnly) (n - p.length - 1) u → at? w p = some u) := by
  obtain ⟨u', h1, h2⟩ := pre_at p (body_dict hn h) hp
  obtain ⟨m, hm⟩ : ∃ m, n - p.length = m + 1 := ⟨n - p.length - 1, by omega⟩
  rw [hm] at h1
  constructor
  · intro hs
    simp only [pre, hs, andThen, orElse, Except.ok.injEq] at h1
    rw [h1]; exact h2
  · intro u hs hi
    rw [hm] at hi
    simp only [Nat.add_sub_cancel] at hi
    simp only [pre, hs, andThen, pre_inert E _ m u hi, orElse, Except.ok.injEq] at h1
    rw [h1]; exact h2

/-- C223: with `recursive_python_only=True` objects stay; otherwise an object that converts to `u` is replaced by `u`. -/
theorem C223_objects (E : Env κ α) (pythonOnly : Bool) (depth : DepthArg) (n : Nat) (hn : depthOf depth = .ok n) (d : List (κ × V κ α)) (w : V κ α)
    (h : toDict E false true pythonOnly depth (.dict d) = .ok w) (p : List (Step κ)) (o : α) (hp : at? (.dict d) p = some (.obj o)) (hlt : p.length < n) :
    ((pythonOnly = true ∨ E.mapping o = none) → at? w p = some (.obj o)) ∧
    (∀ u, pythonOnly = false → E.mapping o = some u → Inert E true (n - p.length - 1) u → at? w p = some u) := by
  obtain ⟨u', h1, h2⟩ := pre_at p (body_dict hn h) hp
  obtain ⟨m, hm⟩ : ∃ m, n - p.length = m + 1 := ⟨n - p.length - 1, by omega⟩
  rw [hm] at h1
  constructor
  · rintro (rfl | hs)
    · simp only [pre, Bool.not_true, Bool.false_eq_true, if_false, Except.ok.injEq] at h1
      rw [h1]; exact h2
    · simp only [pre, hs, andThen, orElse, ite_self, Except.ok.injEq] at h1
      rw [h1]; exact h2
  · rintro u rfl hs hi
    rw [hm] at hi
    simp only [Nat.add_sub_cancel] at hi
    simp only [pre, Bool.not_false, if_true, hs, andThen, pre_inert E true m u hi, orElse, Except.ok.injEq] at h1
    rw [h1]; exact h2

/-- `"[1]"` parses to a list. -/
def listEnv : Env Nat Nat where
  json s := if s = ['[', '1', ']'] then some (.list [.atom 1]) else none
  parser := none
  mapping _ := none
  mkSet l := some l
  position i := i
  same _ := 0
  pairs l := match l with
    | [.tuple [.atom k, v]] => some [(k, v)]
    | _ => none

/-- C223 is false: `to_dict("[1]")` returns a list, also with `suppress=True`; and a frozenset holding the pair `(7, 8)` becomes `{7: 8}`, where the list of
the same item becomes `{0: (7, 8)}`. -/
theorem C223_violation :
    toDict listEnv true false true .other (.str ['[', '1', ']']) = .ok (.list [.atom 1]) ∧ ¬ IsDict (V.list [V.atom 1] : V Nat Nat) ∧
    toDict listEnv false false true .other (.frozenset [.tuple [.atom 7, .atom 8]]) = .ok (.dict [(7, .atom 8)]) ∧
    toDict listEnv false false true .other (.list [.tuple [.atom 7, .atom 8]]) = .ok (.dict [(0, .tuple [.atom 7, .atom 8])]) :=
  ⟨rfl, (by rintro ⟨d, h⟩; cases h), rfl, rfl⟩

example : toDict listEnv false true true .other (.dict [(3, .str ['[', '1', ']']), (4, .obj 2)]) = .ok (.dict [(3, .list [.atom 1]), (4, .obj 2)]) := rfl
example : Inert listEnv false 4 (V.list [V.atom 1]) := by simp [Inert]

/-! ## C134: how it fails -/

theorem pre_error (E : Env κ α) (custom : Bool) : ∀ (n : Nat) (v : V κ α) (e : Exc), pre E custom n v = .error e → e = .typeError := by
  intro n
  induction n with
  | zero => intro v e h; cases h
  | succ n ih =>
    have hall : ∀ (l : List (V κ α)) (e : Exc), all (pre E custom n) l = .error e → e = .typeError := by
      intro l
      induction l with
      | nil => intro e h; cases h
      | cons v l ihl =>
        intro e h
        simp only [all] at h
        cases hf : pre E custom n v with
        | error e' => rw [hf] at h; cases h; exact ih v e hf
        | ok w =>
          rw [hf] at h
          simp only at h
          cases ha : all (pre E custom n) l with
          | error e' => rw [ha] at h; cases h; exact ihl e ha
          | ok ws => rw [ha] at h; cases h
    have hallv : ∀ (l : List (κ × V κ α)) (e : Exc), allValues (pre E custom n) l = .error e → e = .typeError := by
      intro l
      induction l with
      | nil => intro e h; cases h
      | cons kv l ihl =>
        obtain ⟨k, v⟩ := kv
        intro e h
        simp only [allValues] at h
        cases hf : pre E custom n v with
        | error e' => rw [hf] at h; cases h; exact ih v e hf
        | ok w =>
          rw [hf] at h
          simp only at h
          cases ha : allValues (pre E custom n) l with
          | error e' => rw [ha] at h; cases h; exact ihl e ha
          | ok ws => rw [ha] at h; cases h
    have hset : ∀ (g : List (V κ α) → V κ α) (l : List (V κ α)) (e : Exc), wrapSet E.mkSet g (all (pre E custom n) l) = .error e → e = .typeError := by
      intro g l e h
      cases ha : all (pre E custom n) l with
      | error e' => rw [ha] at h; cases h; exact hall l e ha
      | ok ws =>
        rw [ha] at h
        simp only [wrapSet] at h
        cases hm : E.mkSet ws with
        | some s => rw [hm] at h; cases h
        | none => rw [hm] at h; exact (Except.error.inj h).symm
    intro v e h
    cases v with
    | str s => obtain ⟨w, hw⟩ := orElse_ok (.str s) (andThen (pre E custom n) (E.parseIn s)); simp only [pre, hw] at h; cases h
    | enum d => obtain ⟨w, hw⟩ := orElse_ok (.enum d) (pre E custom n (.dict d)); simp only [pre, hw] at h; cases h
    | obj o =>
      obtain ⟨w, hw⟩ := orElse_ok (.obj o) (andThen (pre E custom n) (E.mapping o))
      simp only [pre, hw] at h
      split at h <;> cases h
    | none => cases h
    | atom a => cases h
    | dict d =>
      simp only [pre] at h
      cases ha : allValues (pre E custom n) d with
      | error e' => rw [ha] at h; cases h; exact hallv d e ha
      | ok ws => rw [ha] at h; cases h
    | list l =>
      simp only [pre] at h
      cases ha : all (pre E custom n) l with
      | error e' => rw [ha] at h; cases h; exact hall l e ha
      | ok ws => rw [ha] at h; cases h
    | tuple l =>
      simp only [pre] at h
      cases ha : all (pre E custom n) l with
      | error e' => rw [ha] at h; cases h; exact hall l e ha
      | ok ws => rw [ha] at h; cases h
    | set l => exact hset _ l e h
    | frozenset l => exact hset _ l e h

/-- C134: if the recursive conversion of a dict fails, then with TypeError, and a set is reached within the depth limit. -/
theorem C134_failure_partial (E : Env κ α) (pythonOnly : Bool) (depth : DepthArg) (n : Nat) (hn : depthOf depth = .ok n) (d : List (κ × V κ α)) (e : Exc)
    (h : toDict E false true pythonOnly depth (.dict d) = .error e) : e = .typeError ∧ ¬ NoSet n (V.dict d) := by
  refine ⟨?_, ?_⟩
  · unfold toDict body at h
    rw [hn] at h
    simp only [if_true] at h
    cases hp : pre E (!pythonOnly) n (.dict d) with
    | error e' =>
      rw [hp] at h
      simp only [isEmptyStr, Bool.or_self, Bool.false_eq_true, if_false, Except.error.injEq] at h
      rw [← h]; exact pre_error E _ n _ e' hp
    | ok x =>
      rw [hp] at h
      obtain ⟨d', rfl⟩ := pre_dict hp
      simp [topLevel] at h
  · intro hs
    obtain ⟨d', hd⟩ := C134_succeeds_partial E pythonOnly depth n hn d hs
    rw [hd] at h; cases h

/-! ## C224: the parser given reads every text -/

/-- C224: true when no parser is given, or one that does not mind the extra keyword: then above the depth limit a nested text is read exactly as at the top
level.  The full claim has no condition on the parser. -/
theorem C224_partial (E : Env κ α) (hE : ∀ p, E.parser = some p → ∀ s, p.runWith s = p.run s) (pythonOnly : Bool) (depth : DepthArg) (n : Nat)
    (hn : depthOf depth = .ok n) (d : List (κ × V κ α)) (w : V κ α)
    (h : toDict E false true pythonOnly depth (.dict d) = .ok w) (p : List (Step κ)) (s : List Char) (hp : at? (.dict d) p = some (.str s)) (hlt : p.length < n)
    (u : V κ α) (hu : topLevel E (.str s) = .ok u) (hi : Inert E (!pythonOnly) (n - p.length - 1) u) : at? w p = some u := by
  refine (C223_texts E pythonOnly depth n hn d w h p s hp hlt).2 u ?_ hi
  have hr := raiseParse_ok.1 hu
  unfold Env.parse at hr
  unfold Env.parseIn
  cases hpa : E.parser with
  | none => rw [hpa] at hr; exact hr
  | some q => rw [hpa] at hr; simp only at hr ⊢; rw [hE q hpa s]; exact hr

/-- C224 is false: a parser that takes the text alone reads no nested text at all, whatever it would return: every text inside stays a text. -/
theorem C224_violation (E : Env κ α) (q : Parser κ α) (hq : E.parser = some q) (hk : ∀ s, q.runWith s = none) (pythonOnly : Bool) (depth : DepthArg) (n : Nat)
    (hn : depthOf depth = .ok n) (d : List (κ × V κ α)) (w : V κ α) (h : toDict E false true pythonOnly depth (.dict d) = .ok w)
    (p : List (Step κ)) (s : List Char) (hp : at? (.dict d) p = some (.str s)) (hlt : p.length < n) :
    at? w p = some (.str s) ∧ topLevel E (.str s) = raiseParse (q.run s) := by
  refine ⟨(C223_texts E pythonOnly depth n hn d w h p s hp hlt).1 ?_, ?_⟩
  · unfold Env.parseIn; rw [hq]; exact hk s
  · simp only [topLevel, Env.parse, hq]

/-- A parser that reads every text as 5 and takes no keyword. -/
def fiveEnv : Env Nat Nat := { listEnv with parser := some ⟨fun _ => some (.dict [(5, .atom 5)]), fun _ => none⟩ }

example : toDict fiveEnv false false true .other (.str ['x']) = .ok (.dict [(5, .atom 5)]) ∧
    toDict fiveEnv false true true .other (.dict [(3, .str ['x'])]) = .ok (.dict [(3, .str ['x'])]) := ⟨rfl, rfl⟩

end Verif.ToDict
