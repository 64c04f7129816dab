import Verif.Model.ToDict

/-!
# C85, C133, C134: `ln.to_dict`
-/

set_option linter.unusedSectionVars false
set_option linter.unusedSimpArgs false
set_option linter.unusedVariables false

namespace Verif.ToDict

variable {κ α : Type} [DecidableEq κ]

/-! ### Specification: places in a nested value -/

/-- One step into a container: a key of a dict, or a position in a list or tuple. -/
inductive Step (κ : Type) where
  | key (k : κ)
  | idx (i : Nat)

/-- The part one step below. -/
def child : V κ α → Step κ → Option (V κ α)
  | .dict d, .key k => Dict.get? d k
  | .list l, .idx i => l[i]?
  | .tuple l, .idx i => l[i]?
  | _, _ => none

/-- The part at a path. -/
def at? : V κ α → List (Step κ) → Option (V κ α)
  | v, [] => some v
  | v, s :: p => (child v s).bind (fun u => at? u p)

/-! ### Lemmas -/

theorem allValues_get {f : V κ α → Except Exc (V κ α)} {d d' : List (κ × V κ α)} (h : allValues f d = .ok d') {k : κ} {u : V κ α}
    (hu : Dict.get? d k = some u) : ∃ u', f u = .ok u' ∧ Dict.get? d' k = some u' := by
  induction d generalizing d' with
  | nil => cases hu
  | cons kv d ih =>
    obtain ⟨a, v⟩ := kv
    simp only [allValues] at h
    cases hf : f v with
    | error e => rw [hf] at h; cases h
    | ok w =>
      rw [hf] at h
      simp only [] at h
      cases ha : allValues f d with
      | error e => rw [ha] at h; cases h
      | ok ws =>
        rw [ha] at h
        simp only [Except.ok.injEq] at h
        subst h
        rw [Dict.get?_cons] at hu ⊢
        split at hu
        · next e => rw [if_pos e]; cases hu; exact ⟨w, hf, rfl⟩
        · next e => rw [if_neg e]; exact ih ha hu

theorem all_get {f : V κ α → Except Exc (V κ α)} {l l' : List (V κ α)} (h : all f l = .ok l') {i : Nat} {u : V κ α}
    (hu : l[i]? = some u) : ∃ u', f u = .ok u' ∧ l'[i]? = some u' := by
  induction l generalizing l' i with
  | nil => simp at hu
  | cons v l ih =>
    simp only [all] at h
    cases hf : f v with
    | error e => rw [hf] at h; cases h
    | ok w =>
      rw [hf] at h
      simp only [] at h
      cases ha : all f l with
      | error e => rw [ha] at h; cases h
      | ok ws =>
        rw [ha] at h
        simp only [Except.ok.injEq] at h
        subst h
        cases i with
        | zero => simp only [List.getElem?_cons_zero, Option.some.injEq] at hu ⊢; subst hu; exact ⟨w, hf, rfl⟩
        | succ i => simp only [List.getElem?_cons_succ] at hu ⊢; exact ih ha hu

theorem pre_child {E : Env κ α} {custom : Bool} {n : Nat} {v w u : V κ α} {s : Step κ} (h : pre E custom (n + 1) v = .ok w) (hu : child v s = some u) :
    ∃ u', pre E custom n u = .ok u' ∧ child w s = some u' := by
  cases v <;> cases s <;> simp only [child] at hu <;> try (exact absurd hu (by simp))
  · next d k =>
    simp only [pre] at h
    cases ha : allValues (pre E custom n) d with
    | error e => rw [ha] at h; cases h
    | ok d' =>
      rw [ha] at h
      simp only [wrapDict, Except.ok.injEq] at h
      subst h
      exact allValues_get ha hu
  · next l i =>
    simp only [pre] at h
    cases ha : all (pre E custom n) l with
    | error e => rw [ha] at h; cases h
    | ok d' =>
      rw [ha] at h
      simp only [wrap, Except.ok.injEq] at h
      subst h
      exact all_get ha hu
  · next l i =>
    simp only [pre] at h
    cases ha : all (pre E custom n) l with
    | error e => rw [ha] at h; cases h
    | ok d' =>
      rw [ha] at h
      simp only [wrap, Except.ok.injEq] at h
      subst h
      exact all_get ha hu

theorem pre_at {E : Env κ α} {custom : Bool} (p : List (Step κ)) : ∀ {n : Nat} {v w u : V κ α}, pre E custom n v = .ok w → at? v p = some u →
    ∃ u', pre E custom (n - p.length) u = .ok u' ∧ at? w p = some u' := by
  induction p with
  | nil => intro n v w u h hu; cases hu; exact ⟨w, h, rfl⟩
  | cons s p ih =>
    intro n v w u h hu
    simp only [at?] at hu ⊢
    cases hc : child v s with
    | none => rw [hc] at hu; cases hu
    | some x =>
      rw [hc] at hu
      simp only [Option.bind_some] at hu
      cases n with
      | zero =>
        simp only [pre, Except.ok.injEq] at h
        subst h
        refine ⟨u, by simp [pre], ?_⟩
        rw [hc]; exact hu
      | succ n =>
        obtain ⟨x', h1, h2⟩ := pre_child h hc
        obtain ⟨u', h3, h4⟩ := ih h1 hu
        refine ⟨u', ?_, by rw [h2]; exact h4⟩
        rw [List.length_cons, Nat.add_sub_add_right]; exact h3

/-! ### C85 -/

/-- **C85** (range). With an integer depth outside 0..10, `to_dict` raises `ValueError` for every input (other than the empty string); with one inside, a dict is converted (here: to itself). -/
theorem C85_range (E : Env κ α) (pythonOnly : Bool) (i : Int) :
    (∀ (recursive : Bool) (v : V κ α), isEmptyStr v = false → ¬(0 ≤ i ∧ i ≤ 10) → toDict E false recursive pythonOnly (.int i) v = .error .valueError) ∧
    (∀ d : List (κ × V κ α), 0 ≤ i ∧ i ≤ 10 → toDict E false false pythonOnly (.int i) (.dict d) = .ok (.dict d)) ∧
    (0 ≤ i ∧ i ≤ 10 → depthOf (.int i) = .ok i.toNat) := by
  have hd : depthOf (.int i) = if 0 ≤ i ∧ i ≤ 10 then .ok i.toNat else .error .valueError := by
    simp only [depthOf]
    by_cases h1 : i < 0
    · rw [if_pos h1, if_neg (by omega)]
    · rw [if_neg h1]
      by_cases h2 : i > 10
      · rw [if_pos h2, if_neg (by omega)]
      · rw [if_neg h2, if_pos (by omega)]
  refine ⟨fun r v hv hi => ?_, fun d hi => ?_, fun hi => by rw [hd, if_pos hi]⟩
  · unfold toDict body
    rw [hd, if_neg hi]
    simp only [hv, Bool.or_self, Bool.false_eq_true, if_false]
  · unfold toDict body
    rw [hd, if_pos hi]
    rfl

/-- **C85** (depth). Recursive conversion of a dict with depth limit `n`: whatever is found in the input `n` or more steps inside (through dicts, lists and tuples) is found unchanged at the same place in the result; and every place above is still there. -/
theorem C85_depth (E : Env κ α) (pythonOnly : Bool) (depth : DepthArg) (n : Nat) (hn : depthOf depth = .ok n) (d : List (κ × V κ α)) (w : V κ α)
    (h : toDict E false true pythonOnly depth (.dict d) = .ok w) (p : List (Step κ)) (u : V κ α) (hu : at? (.dict d) p = some u) :
    (n ≤ p.length → at? w p = some u) ∧ ∃ u', at? w p = some u' := by
  have hw : pre E (!pythonOnly) n (.dict d) = .ok w := by
    unfold toDict body at h
    rw [hn] at h
    simp only [if_true] at h
    cases hp : pre E (!pythonOnly) n (.dict d) with
    | error e => rw [hp] at h; simp [isEmptyStr] at h
    | ok x =>
      rw [hp] at h
      have hx : ∃ d', x = .dict d' := by
        cases n with
        | zero => simp only [pre, Except.ok.injEq] at hp; exact ⟨d, hp.symm⟩
        | succ n =>
          simp only [pre] at hp
          cases ha : allValues (pre E (!pythonOnly) n) d with
          | error e => rw [ha] at hp; cases hp
          | ok d' => rw [ha] at hp; simp only [wrapDict, Except.ok.injEq] at hp; exact ⟨d', hp.symm⟩
      obtain ⟨d', rfl⟩ := hx
      simp only [topLevel, Except.ok.injEq] at h
      rw [← h]
  obtain ⟨u', h1, h2⟩ := pre_at p hw hu
  refine ⟨fun hle => ?_, ⟨u', h2⟩⟩
  rw [Nat.sub_eq_zero_of_le hle] at h1
  simp only [pre, Except.ok.injEq] at h1
  rw [h1]; exact h2

/-! ### C134: recursive conversion does not fail on data without sets -/

/-- No set is reached within `n` steps through dicts, lists and tuples. -/
def NoSet : Nat → V κ α → Prop
  | 0, _ => True
  | n + 1, .dict d => ∀ kv ∈ d, NoSet n kv.2
  | n + 1, .list l => ∀ v ∈ l, NoSet n v
  | n + 1, .tuple l => ∀ v ∈ l, NoSet n v
  | _ + 1, .set _ => False
  | _ + 1, .frozenset _ => False
  | _ + 1, _ => True

theorem all_ok {f : V κ α → Except Exc (V κ α)} {l : List (V κ α)} (h : ∀ v ∈ l, ∃ w, f v = .ok w) : ∃ l', all f l = .ok l' := by
  induction l with
  | nil => exact ⟨[], rfl⟩
  | cons v l ih =>
    obtain ⟨w, hw⟩ := h v List.mem_cons_self
    obtain ⟨l', hl⟩ := ih (fun v hv => h v (List.mem_cons_of_mem _ hv))
    exact ⟨w :: l', by simp only [all, hw, hl]⟩

theorem allValues_ok {f : V κ α → Except Exc (V κ α)} {d : List (κ × V κ α)} (h : ∀ kv ∈ d, ∃ w, f kv.2 = .ok w) : ∃ d', allValues f d = .ok d' := by
  induction d with
  | nil => exact ⟨[], rfl⟩
  | cons kv l ih =>
    obtain ⟨k, v⟩ := kv
    obtain ⟨w, hw⟩ := h (k, v) List.mem_cons_self
    obtain ⟨l', hl⟩ := ih (fun v hv => h v (List.mem_cons_of_mem _ hv))
    exact ⟨(k, w) :: l', by simp only [allValues, hw, hl]⟩

theorem orElse_ok (v : V κ α) (r : Except Exc (V κ α)) : ∃ w, orElse v r = .ok w := by
  cases r with
  | ok w => exact ⟨w, rfl⟩
  | error e => exact ⟨v, rfl⟩

theorem pre_ok (E : Env κ α) (custom : Bool) : ∀ (n : Nat) (v : V κ α), NoSet n v → ∃ w, pre E custom n v = .ok w := by
  intro n
  induction n with
  | zero => intro v _; exact ⟨v, rfl⟩
  | succ n ih =>
    intro v hv
    cases v with
    | str s => exact orElse_ok _ _
    | none => exact ⟨_, rfl⟩
    | atom a => exact ⟨_, rfl⟩
    | enum d => exact orElse_ok _ _
    | obj o =>
      simp only [pre]
      split
      · exact orElse_ok _ _
      · exact ⟨_, rfl⟩
    | set l => exact absurd hv id
    | frozenset l => exact absurd hv id
    | dict d =>
      obtain ⟨d', h⟩ := allValues_ok (f := pre E custom n) (d := d) (fun kv hkv => ih _ (hv kv hkv))
      exact ⟨.dict d', by simp only [pre, h, wrapDict]⟩
    | list l =>
      obtain ⟨d', h⟩ := all_ok (f := pre E custom n) (l := l) (fun v hv' => ih _ (hv v hv'))
      exact ⟨.list d', by simp only [pre, h, wrap]⟩
    | tuple l =>
      obtain ⟨d', h⟩ := all_ok (f := pre E custom n) (l := l) (fun v hv' => ih _ (hv v hv'))
      exact ⟨.tuple d', by simp only [pre, h, wrap]⟩

theorem pre_dict {E : Env κ α} {custom : Bool} {n : Nat} {d : List (κ × V κ α)} {w : V κ α} (h : pre E custom n (.dict d) = .ok w) : ∃ d', w = .dict d' := by
  cases n with
  | zero => simp only [pre, Except.ok.injEq] at h; exact ⟨d, h.symm⟩
  | succ n =>
    simp only [pre] at h
    cases ha : allValues (pre E custom n) d with
    | error e => rw [ha] at h; cases h
    | ok d' => rw [ha] at h; simp only [wrapDict, Except.ok.injEq] at h; exact ⟨d', h.symm⟩

/-- **C134** (partial). Recursive conversion of a dict in which no set is reached within the depth limit succeeds, whatever the strings and objects in it. Missing: sets, see the violation. -/
theorem C134_succeeds_partial (E : Env κ α) (pythonOnly : Bool) (depth : DepthArg) (n : Nat) (hn : depthOf depth = .ok n) (d : List (κ × V κ α))
    (h : NoSet n (V.dict d)) : ∃ d', toDict E false true pythonOnly depth (.dict d) = .ok (.dict d') := by
  obtain ⟨w, hw⟩ := pre_ok E (!pythonOnly) n _ h
  obtain ⟨d', rfl⟩ := pre_dict hw
  refine ⟨d', ?_⟩
  unfold toDict body
  rw [hn]
  simp only [if_true, hw, topLevel]

/-! ### C133: content of a Node -/

/-- Nothing is rewritten within `n` steps: no string parses as JSON, no enum class or convertible object occurs, sets are kept as they are. -/
def Inert (E : Env κ α) (custom : Bool) : Nat → V κ α → Prop
  | 0, _ => True
  | _ + 1, .str s => E.parseIn s = none
  | n + 1, .dict d => ∀ kv ∈ d, Inert E custom n kv.2
  | n + 1, .list l => ∀ v ∈ l, Inert E custom n v
  | n + 1, .tuple l => ∀ v ∈ l, Inert E custom n v
  | n + 1, .set l => (∀ v ∈ l, Inert E custom n v) ∧ E.mkSet l = some l
  | n + 1, .frozenset l => (∀ v ∈ l, Inert E custom n v) ∧ E.mkSet l = some l
  | _ + 1, .enum _ => False
  | _ + 1, .obj o => custom = false ∨ E.mapping o = none
  | _ + 1, .none => True
  | _ + 1, .atom _ => True

theorem all_id {f : V κ α → Except Exc (V κ α)} {l : List (V κ α)} (h : ∀ v ∈ l, f v = .ok v) : all f l = .ok l := by
  induction l with
  | nil => rfl
  | cons v l ih => simp only [all, h v List.mem_cons_self, ih (fun v hv => h v (List.mem_cons_of_mem _ hv))]

theorem allValues_id {f : V κ α → Except Exc (V κ α)} {d : List (κ × V κ α)} (h : ∀ kv ∈ d, f kv.2 = .ok kv.2) : allValues f d = .ok d := by
  induction d with
  | nil => rfl
  | cons kv d ih =>
    obtain ⟨k, v⟩ := kv
    simp only [allValues, h (k, v) List.mem_cons_self, ih (fun v hv => h v (List.mem_cons_of_mem _ hv))]

theorem pre_inert (E : Env κ α) (custom : Bool) : ∀ (n : Nat) (v : V κ α), Inert E custom n v → pre E custom n v = .ok v := by
  intro n
  induction n with
  | zero => intro v _; rfl
  | succ n ih =>
    intro v hv
    cases v with
    | str s => have hv : E.parseIn s = none := hv; simp only [pre, hv, andThen, orElse]
    | none => rfl
    | atom a => rfl
    | enum d => exact absurd hv id
    | obj o =>
      simp only [pre]
      rcases hv with e | e
      · rw [e]; rfl
      · rw [e]; simp only [andThen, orElse]; split <;> rfl
    | dict d => simp only [pre, allValues_id (fun kv hkv => ih _ (hv kv hkv)), wrapDict]
    | list l => simp only [pre, all_id (fun v hv' => ih _ (hv v hv')), wrap]
    | tuple l => simp only [pre, all_id (fun v hv' => ih _ (hv v hv')), wrap]
    | set l => simp only [pre, all_id (fun v hv' => ih _ (hv.1 v hv')), wrapSet, hv.2]
    | frozenset l => simp only [pre, all_id (fun v hv' => ih _ (hv.1 v hv')), wrapSet, hv.2]

/-- **C133** (partial). A dict content in which nothing within five levels reads as JSON, is an enum class or is a convertible object is serialised as it is. -/
theorem C133_content_partial (E : Env κ α) (d : List (κ × V κ α)) (h : Inert E true 5 (V.dict d)) : serializeContent E (.dict d) = .ok (.dict d) := by
  unfold serializeContent toDict body
  simp only [depthOf, if_true, Bool.not_false, pre_inert E true 5 _ h, topLevel]

/-! ### Concrete values -/

/-- The strings "7" and "{}" parse as JSON; sets of texts and numbers are hashable, dicts are not. -/
def sampleEnv : Env Nat Nat where
  json s := if s = ['7'] then some (.atom 7) else if s = ['{', '}'] then some (.dict []) else none
  parser := none
  mapping _ := none
  mkSet l := if l.all (fun v => match v with | .dict _ => false | .list _ => false | .set _ => false | _ => true) then some l else none
  position i := i
  same _ := 0
  pairs _ := none

/-- **C133** (violation). A text that reads as a number comes out as that number, and no content comes out as an empty dict. -/
theorem C133_string_violation :
    serializeContent sampleEnv (.dict [(1, .str ['7'])]) = .ok (.dict [(1, .atom 7)]) ∧ (V.str ['7'] : V Nat Nat) ≠ .atom 7 ∧
    serializeContent sampleEnv .none = .ok (.dict []) :=
  ⟨rfl, by simp, rfl⟩

/-- **C134** (violation). A set containing a text that parses as a JSON object makes the conversion raise `TypeError`. -/
theorem C134_set_violation : toDict sampleEnv false true true .other (.dict [(1, .set [.str ['{', '}']])]) = .error .typeError := rfl

example : Inert sampleEnv true 5 (V.dict [(1, .list [.str ['a'], .atom 3, .tuple [.none]]), (2, .set [.atom 1])]) := by
  simp [Inert, sampleEnv, Env.parseIn]

example : NoSet 5 (V.dict [(1, .list [.str ['7'], .tuple [.obj 1]])] : V Nat Nat) := by simp [NoSet]

/-- Depth 2: a text two steps inside stays, one step inside it is parsed. -/
example : toDict sampleEnv false true true (.int 2) (.dict [(1, .str ['7']), (2, .list [.str ['7']])]) =
    .ok (.dict [(1, .atom 7), (2, .list [.str ['7']])]) := rfl

end Verif.ToDict
