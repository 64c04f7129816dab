import Verif.Model.Deadline

/-!
# C153-C155: deadlines and timeouts of nested blocks
-/

set_option linter.unusedSectionVars false
set_option linter.unusedSimpArgs false
set_option linter.unusedVariables false

namespace Verif.Deadline

/-! ### Specification -/

/-- The time at which a block asked to end by: entry time plus seconds, the given deadline but not before the entry, or nothing. -/
def limit : Entry → Option Int
  | ⟨.failAfter s, _, t⟩ => s.map (fun s => t + s)
  | ⟨.moveOnAfter s, _, t⟩ => s.map (fun s => t + s)
  | ⟨.failAt d, _, t⟩ => d.map (fun d => max d t)
  | ⟨.moveOnAt d, _, t⟩ => d.map (fun d => max d t)
  | ⟨.shielded, _, _⟩ => none

/-- The blocks whose limit applies inside: the innermost ones up to the first shield. -/
def visible : List Entry → List Entry
  | [] => []
  | e :: es => if e.helper = .shielded then [e] else e :: visible es

/-- The limits that apply. -/
def limits (es : List Entry) : List Int := (visible es).filterMap limit

/-- `r` is the earliest of the limits, or `none` if there is none. -/
def Earliest (r : Option Int) (l : List Int) : Prop :=
  match r with
  | none => l = []
  | some d => d ∈ l ∧ ∀ x ∈ l, d ≤ x

/-- The two clock readings of the entry agree (the deadline of `fail_at` is computed from the first and applied to the second). -/
def Steady (e : Entry) : Prop := e.t1 = e.t2

/-- The block had time left when it was entered. -/
def Alive (e : Entry) : Prop := ∀ d, limit e = some d → e.t2 < d

/-! ### Lemmas -/

theorem remaining_eq (d t : Int) : t + remaining d t = max d t := by
  unfold remaining; split <;> omega

/-- The deadline of the opened scope is the limit. -/
def timeOf : Option Int → Time
  | none => .posInf
  | some d => .at d

theorem open_deadline (e : Entry) (h : Steady e) : (openScope e.helper e.t1 e.t2).deadline = timeOf (limit e) := by
  obtain ⟨hp, t1, t2⟩ := e
  unfold Steady at h; simp only at h; subst h
  cases hp with
  | failAfter s => cases s <;> rfl
  | moveOnAfter s => cases s <;> rfl
  | failAt d =>
    cases d with
    | none => rfl
    | some d => simp only [openScope, after, entered, limit, Option.map_some, timeOf, remaining_eq]
  | moveOnAt d =>
    cases d with
    | none => rfl
    | some d => simp only [openScope, after, entered, limit, Option.map_some, timeOf, remaining_eq]
  | shielded => rfl

theorem open_shield (e : Entry) : (openScope e.helper e.t1 e.t2).shield = decide (e.helper = .shielded) := by
  obtain ⟨hp, t1, t2⟩ := e
  cases hp with
  | failAfter s => cases s <;> rfl
  | moveOnAfter s => cases s <;> rfl
  | failAt s => cases s <;> rfl
  | moveOnAt s => cases s <;> rfl
  | shielded => rfl

theorem open_cancelled (e : Entry) (h : Steady e) (ha : Alive e) : (openScope e.helper e.t1 e.t2).cancelled = false := by
  obtain ⟨hp, t1, t2⟩ := e
  unfold Steady at h; simp only at h; subst h
  unfold Alive at ha
  cases hp with
  | failAfter s =>
    cases s with
    | none => rfl
    | some s => have := ha _ rfl; simp only at this; simp only [openScope, after, entered, decide_eq_false_iff_not]; omega
  | moveOnAfter s =>
    cases s with
    | none => rfl
    | some s => have := ha _ rfl; simp only at this; simp only [openScope, after, entered, decide_eq_false_iff_not]; omega
  | failAt d =>
    cases d with
    | none => rfl
    | some d => have := ha _ rfl; simp only at this; simp only [openScope, after, entered, remaining_eq, decide_eq_false_iff_not]; omega
  | moveOnAt d =>
    cases d with
    | none => rfl
    | some d => have := ha _ rfl; simp only at this; simp only [openScope, after, entered, remaining_eq, decide_eq_false_iff_not]; omega
  | shielded => rfl

/-- Minimum of an optional limit and a list. -/
def minOpt : Option Int → List Int → Option Int
  | r, [] => r
  | none, x :: l => minOpt (some x) l
  | some r, x :: l => minOpt (some (if x < r then x else r)) l

theorem minOpt_some (r : Int) : ∀ l, ∃ d, minOpt (some r) l = some d ∧ (d = r ∨ d ∈ l) ∧ d ≤ r ∧ ∀ x ∈ l, d ≤ x := by
  intro l
  induction l generalizing r with
  | nil => exact ⟨r, rfl, .inl rfl, Int.le_refl _, by simp⟩
  | cons x l ih =>
    obtain ⟨d, h1, h2, h3, h4⟩ := ih (if x < r then x else r)
    refine ⟨d, h1, ?_, ?_, ?_⟩
    · rcases h2 with h2 | h2
      · split at h2 <;> simp [h2]
      · simp [h2]
    · split at h3 <;> omega
    · intro y hy
      rcases List.mem_cons.1 hy with rfl | hy
      · split at h3 <;> omega
      · exact h4 y hy

theorem minOpt_earliest : ∀ l, Earliest (minOpt none l) l
  | [] => rfl
  | x :: l => by
    obtain ⟨d, h1, h2, h3, h4⟩ := minOpt_some x l
    show Earliest (minOpt (some x) l) (x :: l)
    rw [h1]
    refine ⟨?_, ?_⟩
    · rcases h2 with rfl | h2 <;> simp_all
    · intro y hy
      rcases List.mem_cons.1 hy with rfl | hy
      · exact h3
      · exact h4 y hy

theorem min_timeOf (r : Option Int) (x : Option Int) : (timeOf r).min (timeOf x) = timeOf (minOpt r x.toList) := by
  cases r <;> cases x <;> rfl

theorem minOpt_append (r : Option Int) : ∀ a b, minOpt r (a ++ b) = minOpt (minOpt r a) b
  | [], b => rfl
  | x :: a, b => by cases r <;> exact minOpt_append _ a b

theorem filterMap_cons_toList (e : Entry) (es : List Entry) : (e :: es).filterMap limit = (limit e).toList ++ es.filterMap limit := by
  rw [List.filterMap_cons]; cases limit e <;> rfl

theorem current_eq (es : List Entry) : ∀ (r : Option Int), (∀ e ∈ visible es, Steady e ∧ Alive e) →
    currentEffective (timeOf r) (scopes es) = timeOf (minOpt r (limits es)) := by
  induction es with
  | nil => intro r _; rfl
  | cons e es ih =>
    intro r h
    have he : e ∈ visible (e :: es) := by unfold visible; split <;> simp
    obtain ⟨hs, ha⟩ := h e he
    simp only [scopes, List.map_cons, currentEffective]
    rw [open_cancelled e hs ha, open_shield, open_deadline e hs, min_timeOf]
    simp only [Bool.false_eq_true, if_false, decide_eq_true_eq]
    unfold limits visible
    by_cases hh : e.helper = .shielded
    · rw [if_pos hh, if_pos hh, filterMap_cons_toList, List.filterMap_nil, List.append_nil]
    · rw [if_neg hh, if_neg hh, filterMap_cons_toList, minOpt_append]
      refine ih _ (fun e' he' => h e' ?_)
      unfold visible; rw [if_neg hh]; exact List.mem_cons_of_mem _ he'

theorem toNone_timeOf (r : Option Int) : toNone (timeOf r) = r := by cases r <;> rfl

theorem effective_eq (es : List Entry) (h : ∀ e ∈ visible es, Steady e ∧ Alive e) :
    effectiveDeadline (scopes es) = minOpt none (limits es) := by
  have := current_eq es none h
  unfold effectiveDeadline
  rw [show (Time.posInf) = timeOf none from rfl, this, toNone_timeOf]

theorem Earliest.unique {r r' : Option Int} {l : List Int} (h : Earliest r l) (h' : Earliest r' l) : r = r' := by
  cases r <;> cases r' <;> simp only [Earliest] at h h'
  · rfl
  · rw [h] at h'; exact absurd h'.1 (by simp)
  · rw [h'] at h; exact absurd h.1 (by simp)
  · have := h.2 _ h'.1; have := h'.2 _ h.1; congr 1; omega

/-! ### C153 -/

/-- C153: inside any nesting of `fail_after`, `move_on_after`, `fail_at`, `move_on_at` and `shield` blocks, none of whose limits had passed on entry, `effective_deadline()` is the earliest limit of the blocks up to the innermost shield, and `None` exactly if none of them has a limit. -/
theorem C153_effective_deadline (es : List Entry) (h : ∀ e ∈ visible es, Steady e ∧ Alive e) :
    Earliest (effectiveDeadline (scopes es)) (limits es) := by
  rw [effective_eq es h]; exact minOpt_earliest _

/-- C153: entering one more block that is not a shield never moves the effective deadline later, and a block without limit does not change it. -/
theorem C153_nesting_tightens (e : Entry) (es : List Entry) (hn : e.helper ≠ .shielded)
    (h : ∀ e' ∈ visible (e :: es), Steady e' ∧ Alive e') :
    (∀ d, effectiveDeadline (scopes es) = some d → ∃ d', effectiveDeadline (scopes (e :: es)) = some d' ∧ d' ≤ d) ∧
    (limit e = none → effectiveDeadline (scopes (e :: es)) = effectiveDeadline (scopes es)) := by
  have hv : visible (e :: es) = e :: visible es := by rw [visible, if_neg hn]
  have h' : ∀ e' ∈ visible es, Steady e' ∧ Alive e' := fun e' he' => h e' (by rw [hv]; exact List.mem_cons_of_mem _ he')
  have E1 := C153_effective_deadline (e :: es) h
  have E2 := C153_effective_deadline es h'
  have hl : limits (e :: es) = (limit e).toList ++ limits es := by unfold limits; rw [hv, filterMap_cons_toList]
  refine ⟨?_, ?_⟩
  · intro d hd
    rw [hd] at E2
    have hm : d ∈ limits (e :: es) := by rw [hl]; exact List.mem_append_right _ E2.1
    cases hr : effectiveDeadline (scopes (e :: es)) with
    | none => rw [hr] at E1; simp only [Earliest] at E1; rw [E1] at hm; exact absurd hm (by simp)
    | some d' => rw [hr] at E1; exact ⟨d', rfl, E1.2 d hm⟩
  · intro hn'
    rw [hn'] at hl
    simp only [Option.toList_none, List.nil_append] at hl
    rw [hl] at E1
    exact E1.unique E2

/-- C153: `fail_at`/`move_on_at` with a deadline in the future give the block exactly that deadline; if the clock moved between the two readings the block ends later by at most that difference, never earlier than the deadline. -/
theorem C153_absolute (d t1 t2 : Int) (h : t1 ≤ t2) :
    ∃ x, (openScope (.failAt (some d)) t1 t2).deadline = .at x ∧ (openScope (.moveOnAt (some d)) t1 t2).deadline = .at x ∧
      d ≤ x ∧ x ≤ max d t1 + (t2 - t1) := by
  refine ⟨t2 + remaining d t1, rfl, rfl, ?_, ?_⟩
  all_goals unfold remaining; split <;> omega

/-- Three blocks: 5 seconds inside an unlimited one inside an absolute deadline inside a shield inside a tighter limit. -/
def nest : List Entry :=
  [⟨.failAfter (some 5), 12, 12⟩, ⟨.moveOnAfter none, 11, 11⟩, ⟨.failAt (some 15), 10, 10⟩, ⟨.shielded, 3, 3⟩, ⟨.failAfter (some 10), 2, 2⟩]

example : (∀ e ∈ visible nest, Steady e ∧ Alive e) ∧ limits nest = [17, 15] ∧ effectiveDeadline (scopes nest) = some 15 := by
  refine ⟨?_, by decide, by decide⟩
  intro e he
  have hv : visible nest = nest.take 4 := by decide
  rw [hv] at he
  simp only [nest, List.take, List.mem_cons, List.not_mem_nil, or_false] at he
  rcases he with rfl | rfl | rfl | rfl <;> refine ⟨rfl, ?_⟩ <;> intro d hd <;> simp [limit] at hd <;> subst hd <;> decide

/-! ### C154 -/

/-- C154: the answer `None` means that no limit applies. This fails: inside a block whose deadline has already passed on entry (also after it passes, or after `cancel()`), AnyIO reports minus infinity, and `effective_deadline()` turns it into `None`, "unlimited". -/
theorem C154_violation : effectiveDeadline (scopes [⟨.moveOnAt (some 3), 10, 10⟩]) = none ∧ limits [⟨.moveOnAt (some 3), 10, 10⟩] = [10] ∧
    effectiveDeadline (scopes [⟨.failAfter (some 5), 10, 10⟩]) = some 15 ∧
    effectiveDeadline (cancel 0 (scopes [⟨.failAfter (some 5), 10, 10⟩])) = none := by decide

/-- C154 (partial): missing: blocks that are cancelled. As long as no visible block has been cancelled, `None` is answered only if no visible block has a limit. -/
theorem C154_none_means_unlimited_partial (es : List Entry) (h : ∀ e ∈ visible es, Steady e ∧ Alive e) :
    effectiveDeadline (scopes es) = none ↔ limits es = [] := by
  have E := C153_effective_deadline es h
  constructor
  · intro hn; rw [hn] at E; exact E
  · intro hl
    cases hr : effectiveDeadline (scopes es) with
    | none => rfl
    | some d => rw [hr, hl] at E; exact absurd E.1 (by simp)

/-- The block was past its limit when it was entered. -/
def Overdue (e : Entry) : Prop := ∃ d, limit e = some d ∧ d ≤ e.t2

/-- The scopes up to the first shield. -/
def visS : List Scope → List Scope
  | [] => []
  | s :: ss => if s.shield = true then [s] else s :: visS ss

theorem cur_none (ss : List Scope) : ∀ acc : Time, acc ≠ .negInf → (∀ s ∈ ss, s.deadline ≠ .negInf) →
    (toNone (currentEffective acc ss) = none ↔ (∃ s ∈ visS ss, s.cancelled = true) ∨ (acc = .posInf ∧ ∀ s ∈ visS ss, s.deadline = .posInf)) := by
  induction ss with
  | nil =>
    intro acc h _
    cases acc with
    | negInf => exact absurd rfl h
    | posInf => simp [currentEffective, toNone, visS]
    | «at» t => simp [currentEffective, toNone, visS]
  | cons s ss ih =>
    intro acc h hd
    have hm : acc.min s.deadline ≠ .negInf ∧ (acc.min s.deadline = .posInf ↔ acc = .posInf ∧ s.deadline = .posInf) := by
      have h1 := hd s List.mem_cons_self
      cases acc with
      | negInf => exact absurd rfl h
      | posInf => cases hsd : s.deadline <;> simp_all [Time.min]
      | «at» t => cases hsd : s.deadline <;> simp_all [Time.min]
    rw [currentEffective, visS]
    by_cases hc : s.cancelled = true
    · rw [if_pos hc]
      refine ⟨fun _ => .inl ⟨s, ?_, hc⟩, fun _ => rfl⟩
      split <;> exact List.mem_cons_self
    · rw [if_neg hc]
      by_cases hsh : s.shield = true
      · rw [if_pos hsh, if_pos hsh]
        have e : toNone (acc.min s.deadline) = none ↔ acc.min s.deadline = .posInf := by
          cases hx : acc.min s.deadline with
          | negInf => exact absurd hx hm.1
          | posInf => simp [toNone]
          | «at» t => simp [toNone]
        rw [e, hm.2]
        simp [hc]
      · rw [if_neg hsh, if_neg hsh, ih _ hm.1 (fun x hx => hd x (List.mem_cons_of_mem _ hx)), hm.2]
        simp [hc, and_assoc]

theorem cancel_deadline (n : Nat) (ss : List Scope) : (cancel n ss).map Scope.deadline = ss.map Scope.deadline := by
  induction ss generalizing n with
  | nil => cases n <;> rfl
  | cons s ss ih => cases n with
    | zero => rfl
    | succ n => simp [cancel, ih]

theorem cancel_visS (n : Nat) (ss : List Scope) :
    (visS (cancel n ss)).map Scope.deadline = (visS ss).map Scope.deadline ∧
    ((∃ s ∈ visS (cancel n ss), s.cancelled = true) ↔ (∃ s ∈ visS ss, s.cancelled = true) ∨ n < (visS ss).length) := by
  induction ss generalizing n with
  | nil => cases n <;> simp [cancel, visS]
  | cons s ss ih =>
    cases n with
    | zero =>
      rw [cancel, visS, visS]
      by_cases hsh : s.shield = true
      · rw [if_pos hsh, if_pos hsh]; simp
      · rw [if_neg hsh, if_neg hsh]; simp
    | succ n =>
      rw [cancel, visS, visS]
      by_cases hsh : s.shield = true
      · rw [if_pos hsh, if_pos hsh]; simp
      · rw [if_neg hsh, if_neg hsh]
        have := ih n
        refine ⟨by simp [this.1], ?_⟩
        simp only [List.mem_cons, exists_eq_or_imp, this.2, List.length_cons]
        constructor
        · rintro (h | h | h)
          · exact .inl (.inl h)
          · exact .inl (.inr h)
          · exact .inr (by omega)
        · rintro ((h | h) | h)
          · exact .inl h
          · exact .inr (.inl h)
          · exact .inr (.inr (by omega))

theorem cancels (ops : List Nat) : ∀ ss : List Scope,
    (ops.foldl (fun ss n => cancel n ss) ss).map Scope.deadline = ss.map Scope.deadline ∧
    (visS (ops.foldl (fun ss n => cancel n ss) ss)).map Scope.deadline = (visS ss).map Scope.deadline ∧
    ((∃ s ∈ visS (ops.foldl (fun ss n => cancel n ss) ss), s.cancelled = true) ↔ (∃ s ∈ visS ss, s.cancelled = true) ∨ ∃ n ∈ ops, n < (visS ss).length) := by
  induction ops with
  | nil => intro ss; simp
  | cons n ops ih =>
    intro ss
    have h1 := ih (cancel n ss)
    have h2 := cancel_visS n ss
    have hlen : (visS (cancel n ss)).length = (visS ss).length := by
      have := congrArg List.length h2.1
      simpa using this
    refine ⟨by rw [List.foldl_cons, h1.1, cancel_deadline], by rw [List.foldl_cons, h1.2.1, h2.1], ?_⟩
    rw [List.foldl_cons, h1.2.2, h2.2, hlen]
    simp only [List.mem_cons, exists_eq_or_imp, or_assoc]

theorem visS_scopes (es : List Entry) : visS (scopes es) = scopes (visible es) := by
  induction es with
  | nil => rfl
  | cons e es ih =>
    have hs := open_shield e
    simp only [scopes, List.map_cons, visS, visible] at ih ⊢
    by_cases hh : e.helper = .shielded
    · rw [if_pos hh, if_pos (by rw [hs]; simp [hh])]; rfl
    · rw [if_neg hh, if_neg (by rw [hs]; simp [hh]), ih]; rfl

theorem open_cancelled_iff (e : Entry) (h : Steady e) : (openScope e.helper e.t1 e.t2).cancelled = true ↔ Overdue e := by
  obtain ⟨hp, t1, t2⟩ := e
  unfold Steady at h; simp only at h; subst h
  unfold Overdue
  cases hp with
  | failAfter s => cases s <;> simp [openScope, after, entered, plain, limit]
  | moveOnAfter s => cases s <;> simp [openScope, after, entered, plain, limit]
  | failAt d => cases d <;> simp [openScope, after, entered, plain, limit, remaining_eq]
  | moveOnAt d => cases d <;> simp [openScope, after, entered, plain, limit, remaining_eq]
  | shielded => simp [openScope, limit]

/-- C154 (partial): exactly when the answer is `None`. Whatever blocks are nested and whichever of them have been cancelled (by a call or because their deadline passed; counted from the innermost), the answer is `None` if and only if no limit applies, or a
block that applies was overdue on entry or has been cancelled. -/
theorem C154_exact_partial (es : List Entry) (h : ∀ e ∈ es, Steady e) (ops : List Nat) :
    effectiveDeadline (ops.foldl (fun ss n => cancel n ss) (scopes es)) = none ↔
      limits es = [] ∨ (∃ e ∈ visible es, Overdue e) ∨ ∃ n ∈ ops, n < (visible es).length := by
  have hvis : ∀ e ∈ visible es, e ∈ es := by
    clear h
    induction es with
    | nil => simp [visible]
    | cons e es ih =>
      intro x hx
      rw [visible] at hx
      split at hx
      · rw [List.mem_singleton] at hx; subst hx; exact List.mem_cons_self
      · rcases List.mem_cons.1 hx with rfl | hx
        · exact List.mem_cons_self
        · exact List.mem_cons_of_mem _ (ih x hx)
  have hc := cancels ops (scopes es)
  have hnn : ∀ s ∈ ops.foldl (fun ss n => cancel n ss) (scopes es), s.deadline ≠ .negInf := by
    intro s hs
    have : s.deadline ∈ (scopes es).map Scope.deadline := by rw [← hc.1]; exact List.mem_map_of_mem hs
    simp only [scopes, List.map_map, List.mem_map, Function.comp] at this
    obtain ⟨e, he, hd⟩ := this
    rw [← hd, open_deadline e (h e he)]
    cases limit e <;> simp [timeOf]
  rw [effectiveDeadline, cur_none _ _ (by simp) hnn, hc.2.2, visS_scopes]
  have h1 : (∃ s ∈ scopes (visible es), s.cancelled = true) ↔ ∃ e ∈ visible es, Overdue e := by
    simp only [scopes, List.mem_map]
    constructor
    · rintro ⟨s, ⟨e, he, rfl⟩, hs⟩
      exact ⟨e, he, (open_cancelled_iff e (h e (hvis e he))).1 hs⟩
    · rintro ⟨e, he, ho⟩
      exact ⟨_, ⟨e, he, rfl⟩, (open_cancelled_iff e (h e (hvis e he))).2 ho⟩
  have h2 : (∀ s ∈ visS (ops.foldl (fun ss n => cancel n ss) (scopes es)), s.deadline = .posInf) ↔ limits es = [] := by
    have : (∀ s ∈ visS (ops.foldl (fun ss n => cancel n ss) (scopes es)), s.deadline = .posInf) ↔
        ∀ d ∈ (visS (ops.foldl (fun ss n => cancel n ss) (scopes es))).map Scope.deadline, d = .posInf := by simp
    rw [this, hc.2.1, visS_scopes, limits, List.filterMap_eq_nil_iff]
    simp only [scopes, List.map_map, List.mem_map, Function.comp]
    constructor
    · intro hh e he
      have := hh _ ⟨e, he, rfl⟩
      rw [open_deadline e (h e (hvis e he))] at this
      cases hl : limit e with
      | none => rfl
      | some d => rw [hl] at this; simp [timeOf] at this
    · rintro hh d ⟨e, he, rfl⟩
      rw [open_deadline e (h e (hvis e he)), hh e he]; rfl
  have h3 : (scopes (visible es)).length = (visible es).length := by simp [scopes]
  rw [h1, h2, h3]
  constructor
  · rintro ((h | h) | ⟨_, h⟩)
    · exact .inr (.inl h)
    · exact .inr (.inr h)
    · exact .inl h
  · rintro (h | h | h)
    · exact .inr ⟨rfl, h⟩
    · exact .inl (.inl h)
    · exact .inl (.inr h)

/-- A block with a limit inside another: after the outer one is cancelled the answer is `None`; cancelling one behind a shield changes nothing. -/
example : effectiveDeadline ([1].foldl (fun ss n => cancel n ss) (scopes [⟨.failAfter (some 5), 1, 1⟩, ⟨.moveOnAfter none, 0, 0⟩])) = none ∧
    effectiveDeadline ([2].foldl (fun ss n => cancel n ss) (scopes [⟨.failAfter (some 5), 1, 1⟩, ⟨.shielded, 0, 0⟩, ⟨.moveOnAfter none, 0, 0⟩])) = some 6 := by decide

/-! ### C155 -/

/-- The helper promises `TimeoutError`. -/
def Fails : Helper → Prop
  | .failAfter (some _) => True
  | .failAt (some _) => True
  | _ => False

instance (h : Helper) : Decidable (Fails h) := by unfold Fails; split <;> infer_instance

/-- C155: whatever happens inside, a block of `fail_after`/`fail_at` that is cut short by its own deadline alone ends with `TimeoutError`, one of `move_on_after`/`move_on_at` ends normally; a cancellation of an enclosing block is passed on, never reported as a timeout; a body that finished or raised by itself ends the block just so. -/
theorem C155_timeout_outcome (h : Helper) (t1 t2 : Int) (s : Scope) (outer : Bool) (now : Int)
    (hs : s.deadline = (openScope h t1 t2).deadline) (hsh : s.shield = (openScope h t1 t2).shield) :
    leaveHelper h s outer .done now = .done ∧
    (∀ e, leaveHelper h s outer (.raised e) now = .raised e) ∧
    (s.cancelled = true → outer = false → (∃ d, s.deadline = .at d ∧ d ≤ now) →
      leaveHelper h s outer .cancelled now = if Fails h then .timeout else .done) ∧
    (s.cancelled = false ∨ (outer = true ∧ h ≠ .shielded) → leaveHelper h s outer .cancelled now = .cancelled) ∧
    (∀ b, leaveHelper h s outer b now = .timeout → Fails h ∧ b = .cancelled ∧ s.cancelled = true ∧ ∃ d, s.deadline = .at d ∧ d ≤ now) := by
  have hsh' : h ≠ .shielded → s.shield = false := by
    intro hn; rw [hsh]; have := open_shield ⟨h, t1, t2⟩; simp only at this; rw [this]; simp [hn]
  refine ⟨?_, ?_, ?_, ?_, ?_⟩
  · unfold leaveHelper; split <;> simp [leaveFail, leave, caught]
  · intro e; unfold leaveHelper; split <;> simp [leaveFail, leave, caught]
  · rintro hc rfl ⟨d, hd, hle⟩
    unfold leaveHelper Fails
    split <;> simp [leaveFail, leave, caught, hc, passed, hd, hle]
  · intro ho
    have hcf : caught s outer .cancelled = false := by
      unfold caught
      rcases ho with ho | ⟨ho, hn⟩
      · simp [ho]
      · simp [ho, hsh' hn]
    unfold leaveHelper; split <;> simp [leaveFail, leave, hcf]
  · intro b ht
    have key : leaveFail s outer b now = .timeout → b = .cancelled ∧ s.cancelled = true ∧ ∃ d, s.deadline = .at d ∧ d ≤ now := by
      intro hf
      unfold leaveFail at hf
      split at hf
      · rename_i hcp
        rw [Bool.and_eq_true] at hcp
        obtain ⟨hc, hp⟩ := hcp
        have hb : b = .cancelled ∧ s.cancelled = true := by
          cases b <;> simp [caught] at hc
          exact ⟨rfl, hc.1⟩
        refine ⟨hb.1, hb.2, ?_⟩
        unfold passed at hp
        split at hp
        · rename_i d hd; exact ⟨d, hd, by simpa using hp⟩
        · exact absurd hp (by simp)
      · unfold leave at hf; split at hf <;> try exact absurd hf (by simp)
        split at hf <;> exact absurd hf (by simp)
    have kl : leave s outer b ≠ .timeout := by
      unfold leave; split <;> try simp
      split <;> simp
    unfold leaveHelper at ht
    unfold Fails
    split at ht
    · exact ⟨trivial, key ht⟩
    · exact ⟨trivial, key ht⟩
    · exact absurd ht kl

example : leaveHelper (.failAt (some 15)) ⟨.at 15, true, false⟩ false .cancelled 15 = .timeout ∧
    leaveHelper (.moveOnAt (some 15)) ⟨.at 15, true, false⟩ false .cancelled 15 = .done ∧
    leaveHelper (.failAt (some 15)) ⟨.at 15, true, false⟩ true .cancelled 15 = .cancelled ∧
    (⟨.at 15, true, false⟩ : Scope).deadline = (openScope (.failAt (some 15)) 10 10).deadline := by decide

/-- C155: a block is cut short from the start exactly if its limit is not after the time of entry. -/
theorem C155_overdue (e : Entry) (h : Steady e) : (openScope e.helper e.t1 e.t2).cancelled = true ↔ Overdue e := open_cancelled_iff e h

example : Overdue ⟨.failAt (some 3), 10, 10⟩ ∧ ¬ Overdue ⟨.failAt (some 11), 10, 10⟩ :=
  ⟨⟨10, rfl, by decide⟩, fun ⟨d, h1, h2⟩ => by simp [limit] at h1; subst h1; exact absurd h2 (by decide)⟩

end Verif.Deadline
