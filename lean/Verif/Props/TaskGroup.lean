import Verif.Model.TaskGroup

/-! # C315: a task group is left when all its tasks have ended, with all their exceptions; C316: `start` gives what the task reported -/

set_option linter.unusedSimpArgs false
set_option linter.unusedVariables false

namespace Verif.TaskGroup

/-! ## Specification -/

/-- A new task is started. -/
def Op.begins : Op → Bool
  | .startSoon => true
  | .start => true
  | _ => false
/-- The task that ends. -/
def Op.ends : Op → Option Nat
  | .ret k => some k
  | .raise k _ => some k
  | .unwind k => some k
  | .retEarly k => some k
  | .raiseEarly k _ => some k
  | .unwindEarly k => some k
  | _ => none
/-- The body of the block ends. -/
def Op.bodyEnds : Op → Bool
  | .bodyRet => true
  | .bodyRaise _ => true
  | .bodyUnwind => true
  | _ => false
/-- The exception raised by the body or by a task that `start` does not wait for any more. -/
def Op.raises : Op → Option Nat
  | .raise _ e => some e
  | .bodyRaise e => some e
  | _ => none
/-- A reason for cancelling the tasks. -/
def Op.cancels : Op → Bool
  | .raise _ _ => true
  | .bodyRaise _ => true
  | .cancel => true
  | _ => false
/-- The body or a task ends because of the cancellation. -/
def Op.unwinds : Op → Bool
  | .unwind _ => true
  | .unwindEarly _ => true
  | .bodyUnwind => true
  | _ => false
/-- What the call of `start` for a task gives. -/
def Op.answers : Op → Option (Nat × Answer)
  | .started k v => some (k, .value v)
  | .retEarly k => some (k, .noReport)
  | .raiseEarly k e => some (k, .raised e)
  | .unwindEarly k => some (k, .cancelled)
  | _ => none

/-- The number of tasks started in a history. -/
def begun (h : List Op) : Nat := h.countP Op.begins

/-! ## Invariant -/

structure Inv (h : List Op) (s : State) : Prop where
  next : s.next = begun h
  absent : ∀ k, s.phase k = .absent ↔ s.next ≤ k
  ended : ∀ k, s.phase k = .ended ↔ k ∈ h.filterMap Op.ends
  body : s.body = false ↔ h.any Op.bodyEnds = true
  errors : s.errors = h.filterMap Op.raises
  cancelled : s.cancelled = h.any Op.cancels
  left : s.left = true ↔ Op.leave ∈ h
  quiet : s.left = true → s.body = false ∧ ∀ k < s.next, s.phase k = .ended
  answers : s.answers = h.filterMap Op.answers
  past : ∀ p ∈ s.answers, s.phase p.1 ≠ .starting ∧ s.phase p.1 ≠ .absent
  one : (s.answers.map Prod.fst).Nodup

theorem init_inv : Inv [] {} := by
  refine ⟨rfl, by simp, by simp, by simp, rfl, rfl, by simp, by simp, rfl, by simp, by simp⟩

theorem allEnded_iff (s : State) : allEnded s = true ↔ ∀ k < s.next, s.phase k = .ended := by simp [allEnded]

theorem begin_some {s t : State} {p : Phase} : begin s p = some t ↔ s.left = false ∧ t = { s with phase := upd s.phase s.next p, next := s.next + 1 } := by
  unfold begin; cases s.left <;> simp [eq_comm]
theorem finish_some {s t : State} {k : Nat} : finish s k = some t ↔ s.phase k = .running ∧ t = { s with phase := upd s.phase k .ended } := by
  unfold finish; by_cases h : s.phase k = .running <;> simp [h, eq_comm]
theorem answer_some {s t : State} {k : Nat} {p : Phase} {a : Answer} :
    answer s k p a = some t ↔ s.phase k = .starting ∧ t = { s with phase := upd s.phase k p, answers := s.answers ++ [(k, a)] } := by
  unfold answer; by_cases h : s.phase k = .starting <;> simp [h, eq_comm]

theorem begin_inv {h : List Op} {s t : State} (i : Inv h s) {op : Op} {p : Phase} (hp : p = .starting ∨ p = .running) (e : begin s p = some t)
    (h1 : op.begins = true) (h2 : op.ends = none) (h3 : op.bodyEnds = false) (h4 : op.raises = none) (h5 : op.cancels = false) (h6 : op ≠ .leave) (h7 : op.answers = none) : Inv (h ++ [op]) t := by
  obtain ⟨hl, rfl⟩ := begin_some.mp e
  have hk : ∀ k, k = s.next → s.phase k = .absent := fun k e => (i.absent k).mpr (by omega)
  refine ⟨?_, ?_, ?_, ?_, ?_, ?_, ?_, ?_, ?_, ?_, i.one⟩ <;> dsimp only
  · rw [i.next]; simp [begun, h1]
  · intro k
    unfold upd
    by_cases e : k = s.next
    · rw [if_pos e]; rcases hp with rfl | rfl <;> simp <;> omega
    · rw [if_neg e, i.absent]; omega
  · intro k
    have := i.ended k
    simp only [List.filterMap_append, List.filterMap_cons, h2, List.filterMap_nil, List.append_nil, ← this]
    unfold upd
    by_cases e : k = s.next
    · rw [if_pos e, hk k e]; rcases hp with rfl | rfl <;> simp
    · rw [if_neg e]
  · rw [i.body]; simp [h3]
  · rw [i.errors]; simp [h4]
  · rw [i.cancelled]; simp [h5]
  · rw [i.left]; simp [h6.symm]
  · intro e; rw [hl] at e; cases e
  · rw [i.answers]; simp [h7]
  · intro q hq
    have := i.past q hq
    have hn : q.1 ≠ s.next := fun e => this.2 (hk _ e)
    simp only [upd, hn, if_false]; exact this

theorem finish_inv {h : List Op} {s t : State} (i : Inv h s) {op : Op} {k : Nat} (e : finish s k = some t)
    (h1 : op.begins = false) (h2 : op.ends = some k) (h3 : op.bodyEnds = false) (h4 : op.raises = none) (h5 : op.cancels = false) (h6 : op ≠ .leave) (h7 : op.answers = none) : Inv (h ++ [op]) t := by
  obtain ⟨hr, rfl⟩ := finish_some.mp e
  refine ⟨?_, ?_, ?_, ?_, ?_, ?_, ?_, ?_, ?_, ?_, i.one⟩ <;> dsimp only
  · rw [i.next]; simp [begun, h1]
  · intro j
    have := i.absent j
    unfold upd
    by_cases e : j = k
    · subst e; rw [if_pos rfl]; rw [hr] at this; simpa using this
    · rw [if_neg e, this]
  · intro j
    have := i.ended j
    simp only [List.filterMap_append, List.filterMap_cons, h2, List.filterMap_nil, List.mem_append, List.mem_singleton, ← this]
    unfold upd
    by_cases e : j = k
    · simp [e]
    · simp [e]
  · rw [i.body]; simp [h3]
  · rw [i.errors]; simp [h4]
  · rw [i.cancelled]; simp [h5]
  · rw [i.left]; simp [h6.symm]
  · intro e
    refine ⟨(i.quiet e).1, fun j hj => ?_⟩
    have := (i.quiet e).2 j hj
    unfold upd; split <;> simp_all
  · rw [i.answers]; simp [h7]
  · intro q hq
    have := i.past q hq
    unfold upd; split <;> simp_all

theorem answer_inv {h : List Op} {s t : State} (i : Inv h s) {op : Op} {k : Nat} {p : Phase} {a : Answer} (e : answer s k p a = some t)
    (h1 : op.begins = false) (h2 : (p = .ended ∧ op.ends = some k) ∨ (p = .running ∧ op.ends = none)) (h3 : op.bodyEnds = false) (h4 : op.raises = none) (h5 : op.cancels = false) (h6 : op ≠ .leave)
    (h7 : op.answers = some (k, a)) : Inv (h ++ [op]) t := by
  obtain ⟨hr, rfl⟩ := answer_some.mp e
  have hn : ¬ s.next ≤ k := fun m => by have := (i.absent k).mpr m; rw [hr] at this; cases this
  refine ⟨?_, ?_, ?_, ?_, ?_, ?_, ?_, ?_, ?_, ?_, ?_⟩ <;> dsimp only
  · rw [i.next]; simp [begun, h1]
  · intro j
    unfold upd
    by_cases e : j = k
    · subst e; rw [if_pos rfl]; rcases h2 with ⟨rfl, _⟩ | ⟨rfl, _⟩ <;> simpa using hn
    · rw [if_neg e, i.absent j]
  · intro j
    have := i.ended j
    simp only [List.filterMap_append, List.mem_append, ← this]
    unfold upd
    by_cases ne : j = k
    · subst ne
      rcases h2 with ⟨rfl, h2⟩ | ⟨rfl, h2⟩ <;> simp [h2, hr]
    · rw [if_neg ne]; rcases h2 with ⟨rfl, h2⟩ | ⟨rfl, h2⟩ <;> simp [h2]; exact fun c => absurd c ne
  · rw [i.body]; simp [h3]
  · rw [i.errors]; simp [h4]
  · rw [i.cancelled]; simp [h5]
  · rw [i.left]; simp [h6.symm]
  · intro e
    have := (i.quiet e).2 k (by omega)
    rw [hr] at this; cases this
  · rw [i.answers]; simp [h7]
  · intro q hq
    simp only [List.mem_append, List.mem_singleton] at hq
    rcases hq with hq | rfl
    · have := i.past q hq
      unfold upd; split
      · next e => rw [e, hr] at this; exact absurd rfl this.1
      · exact this
    · unfold upd; rcases h2 with ⟨rfl, _⟩ | ⟨rfl, _⟩ <;> simp
  · simp only [List.map_append, List.map_cons, List.map_nil]
    rw [List.nodup_append]
    refine ⟨i.one, by simp, ?_⟩
    intro x hx y hy
    simp only [List.mem_singleton] at hy
    obtain ⟨q, hq, rfl⟩ := List.mem_map.mp hx
    rintro rfl
    have := (i.past q hq).1
    rw [hy] at this; exact this hr

theorem step_inv {h : List Op} {s t : State} (i : Inv h s) {op : Op} (e : step s op = some t) : Inv (h ++ [op]) t := by
  cases op with
  | startSoon => exact begin_inv i (.inr rfl) e rfl rfl rfl rfl rfl (by simp) rfl
  | start => exact begin_inv i (.inl rfl) e rfl rfl rfl rfl rfl (by simp) rfl
  | started k v => exact answer_inv i e rfl (.inr ⟨rfl, rfl⟩) rfl rfl rfl (by simp) rfl
  | ret k => exact finish_inv i e rfl rfl rfl rfl rfl (by simp) rfl
  | retEarly k => exact answer_inv i e rfl (.inl ⟨rfl, rfl⟩) rfl rfl rfl (by simp) rfl
  | raiseEarly k x => exact answer_inv i e rfl (.inl ⟨rfl, rfl⟩) rfl rfl rfl (by simp) rfl
  | unwind k =>
    simp only [step] at e
    by_cases c : s.cancelled = true
    · rw [if_pos c] at e; exact finish_inv i e rfl rfl rfl rfl rfl (by simp) rfl
    · rw [if_neg c] at e; cases e
  | unwindEarly k =>
    simp only [step] at e
    by_cases c : s.cancelled = true
    · rw [if_pos c] at e; exact answer_inv i e rfl (.inl ⟨rfl, rfl⟩) rfl rfl rfl (by simp) rfl
    · rw [if_neg c] at e; cases e
  | raise k x =>
    simp only [step, Option.map_eq_some_iff] at e
    obtain ⟨u, hu, rfl⟩ := e
    have j : Inv (h ++ [.ret k]) u := finish_inv i hu rfl rfl rfl rfl rfl (by simp) rfl
    have q := j.quiet
    refine ⟨?_, j.absent, ?_, ?_, ?_, ?_, ?_, j.quiet, ?_, j.past, j.one⟩
    · show u.next = _; rw [j.next]; simp [begun, Op.begins]
    · intro m
      show u.phase m = .ended ↔ _
      rw [j.ended]; simp [Op.ends]
    · show u.body = false ↔ _; rw [j.body]; simp [Op.bodyEnds]
    · show u.errors ++ [x] = _; rw [j.errors]; simp [Op.raises]
    · show true = _; simp [Op.cancels]
    · show u.left = true ↔ _; rw [j.left]; simp
    · show u.answers = _; rw [j.answers]; simp [List.filterMap_cons, Op.answers]
  | bodyRet =>
    simp only [step] at e
    by_cases c : s.body = true
    · rw [if_pos c] at e; cases e
      refine ⟨by simp [begun, Op.begins, i.next], i.absent, by simp [Op.ends, i.ended], by simp [Op.bodyEnds], by simp [Op.raises, i.errors], by simp [Op.cancels, i.cancelled], by simp [i.left], ?_, by simp [Op.answers, i.answers], i.past, i.one⟩
      intro hl; exact ⟨rfl, (i.quiet hl).2⟩
    · rw [if_neg c] at e; cases e
  | bodyRaise x =>
    simp only [step] at e
    by_cases c : s.body = true
    · rw [if_pos c] at e; cases e
      refine ⟨by simp [begun, Op.begins, i.next, failed], i.absent, by simp [Op.ends, i.ended, failed], by simp [Op.bodyEnds, failed], by simp [Op.raises, i.errors, failed], by simp [Op.cancels, i.cancelled, failed], by simp [i.left, failed], ?_,
        by simp [Op.answers, i.answers, failed], i.past, i.one⟩
      intro hl; exact ⟨rfl, (i.quiet hl).2⟩
    · rw [if_neg c] at e; cases e
  | bodyUnwind =>
    simp only [step] at e
    by_cases c : (s.body && s.cancelled) = true
    · rw [if_pos c] at e; cases e
      refine ⟨by simp [begun, Op.begins, i.next], i.absent, by simp [Op.ends, i.ended], by simp [Op.bodyEnds], by simp [Op.raises, i.errors], by simp [Op.cancels, i.cancelled], by simp [i.left], ?_, by simp [Op.answers, i.answers], i.past, i.one⟩
      intro hl; exact ⟨rfl, (i.quiet hl).2⟩
    · rw [if_neg c] at e; cases e
  | cancel =>
    simp only [step] at e
    cases e
    exact ⟨by simp [begun, Op.begins, i.next], i.absent, by simp [Op.ends, i.ended], by simp [Op.bodyEnds, i.body], by simp [Op.raises, i.errors], by simp [Op.cancels], by simp [i.left], i.quiet, by simp [Op.answers, i.answers], i.past, i.one⟩
  | leave =>
    simp only [step] at e
    by_cases c : (!s.body && !s.left && allEnded s) = true
    · rw [if_pos c] at e; cases e
      simp only [Bool.and_eq_true, Bool.not_eq_true', allEnded_iff] at c
      exact ⟨by simp [begun, Op.begins, i.next], i.absent, by simp [Op.ends, i.ended], by simp [Op.bodyEnds, i.body], by simp [Op.raises, i.errors], by simp [Op.cancels, i.cancelled], by simp, fun _ => ⟨c.1.1, c.2⟩,
        by simp [Op.answers, i.answers], i.past, i.one⟩
    · rw [if_neg c] at e; cases e

theorem run_append {s : State} (h l : List Op) : run s (h ++ l) = (run s h).bind fun t => run t l := by
  induction h generalizing s with
  | nil => rfl
  | cons op h ih =>
    simp only [List.cons_append, run]
    cases step s op with
    | none => rfl
    | some u => exact ih

theorem run_inv (h : List Op) {s : State} (e : run {} h = some s) : Inv h s := by
  have key : ∀ (l p : List Op) (s t : State), Inv p s → run s l = some t → Inv (p ++ l) t := by
    intro l
    induction l with
    | nil => intro p s t i e; cases e; simpa using i
    | cons op l ih =>
      intro p s t i e
      simp only [run, Option.bind_eq_some_iff] at e
      obtain ⟨u, hu, e⟩ := e
      have := ih (p ++ [op]) u t (step_inv i hu) e
      simpa using this
  simpa using key h [] {} s init_inv e

/-- A history that goes on after a point has a state there, in which the next thing is possible. -/
theorem run_split {pre post : List Op} {op : Op} {s : State} (e : run {} (pre ++ op :: post) = some s) : ∃ u v, run {} pre = some u ∧ step u op = some v ∧ run v post = some s := by
  rw [run_append, Option.bind_eq_some_iff] at e
  obtain ⟨u, hu, e⟩ := e
  simp only [run, Option.bind_eq_some_iff] at e
  obtain ⟨v, hv, e⟩ := e
  exact ⟨u, v, hu, hv, e⟩

/-! ## C315 -/

/-- **C315.**  When the block is left, its body and every task started in it have ended, and no task is started, ends or raises afterwards. -/
theorem C315_joined {pre post : List Op} {s : State} (e : run {} (pre ++ .leave :: post) = some s) :
    (∃ op ∈ pre, op.bodyEnds = true) ∧ (∀ k < begun pre, ∃ op ∈ pre, op.ends = some k) ∧
    ∀ op ∈ post, op.begins = false ∧ op.ends = none ∧ op.bodyEnds = false ∧ op ≠ .leave := by
  obtain ⟨u, v, hu, hv, hs⟩ := run_split e
  have i := run_inv pre hu
  have j := step_inv i hv
  have hl : v.left = true := j.left.mpr (by simp)
  obtain ⟨hb, ha⟩ := j.quiet hl
  refine ⟨?_, ?_, ?_⟩
  · have := j.body.mp hb
    simp only [List.any_append, List.any_cons, List.any_nil, Op.bodyEnds, Bool.or_false] at this
    obtain ⟨op, ho, hb⟩ := List.any_eq_true.mp this
    exact ⟨op, ho, hb⟩
  · intro k hk
    have hn : k < v.next := by rw [j.next]; simp only [begun, List.countP_append] at hk ⊢; omega
    have := (j.ended k).mp (ha k hn)
    simp only [List.filterMap_append, List.filterMap_cons, Op.ends, List.filterMap_nil, List.append_nil, List.mem_filterMap] at this
    exact this
  · have key : ∀ (l p : List Op) (v s : State), Inv p v → v.left = true → run v l = some s → ∀ op ∈ l, op.begins = false ∧ op.ends = none ∧ op.bodyEnds = false ∧ op ≠ .leave := by
      intro l
      induction l with
      | nil => intro p v s _ _ _ op ho; cases ho
      | cons x l ih =>
        intro p v s j hl e op ho
        simp only [run, Option.bind_eq_some_iff] at e
        obtain ⟨w, hw, e⟩ := e
        have jj := step_inv j hw
        have hw' : w.left = true := jj.left.mpr (List.mem_append_left _ (j.left.mp hl))
        obtain ⟨hb, ha⟩ := j.quiet hl
        have none' : ∀ k, v.phase k = .absent ∨ v.phase k = .ended := by
          intro k
          by_cases c : k < v.next
          · exact .inr (ha k c)
          · exact .inl ((j.absent k).mpr (by omega))
        have nr : ∀ k t, finish v k ≠ some t := by
          intro k t hf
          have := (finish_some.mp hf).1
          rcases none' k with h | h <;> rw [h] at this <;> cases this
        have na : ∀ k p a t, answer v k p a ≠ some t := by
          intro k p a t hf
          have := (answer_some.mp hf).1
          rcases none' k with h | h <;> rw [h] at this <;> cases this
        rcases List.mem_cons.mp ho with rfl | ho
        · cases op with
          | startSoon => have := (begin_some.mp hw).1; rw [hl] at this; cases this
          | start => have := (begin_some.mp hw).1; rw [hl] at this; cases this
          | started k a => exact absurd hw (na _ _ _ _)
          | ret k => exact absurd hw (nr _ _)
          | raise k x => simp only [step, Option.map_eq_some_iff] at hw; obtain ⟨q, hq, _⟩ := hw; exact absurd hq (nr _ _)
          | unwind k => simp only [step] at hw; split at hw; exact absurd hw (nr _ _); cases hw
          | retEarly k => exact absurd hw (na _ _ _ _)
          | raiseEarly k x => exact absurd hw (na _ _ _ _)
          | unwindEarly k => simp only [step] at hw; split at hw; exact absurd hw (na _ _ _ _); cases hw
          | bodyRet => simp [step, hb] at hw
          | bodyRaise x => simp [step, hb] at hw
          | bodyUnwind => simp [step, hb] at hw
          | cancel => exact ⟨rfl, rfl, rfl, by simp⟩
          | leave => simp [step, hl] at hw
        · exact ih _ w s jj hw' e op ho
    exact key post _ v s j hl hs

/-- **C315.**  The block can be left as soon as its body and every task have ended, whatever happened before: it never waits for anything else. -/
theorem C315_leaves {h : List Op} {s : State} (e : run {} h = some s) :
    (∃ t, step s .leave = some t) ↔ Op.leave ∉ h ∧ (∃ op ∈ h, op.bodyEnds = true) ∧ ∀ k < begun h, ∃ op ∈ h, op.ends = some k := by
  have i := run_inv h e
  have hb : s.body = false ↔ ∃ op ∈ h, op.bodyEnds = true := by rw [i.body, List.any_eq_true]
  have ha : allEnded s = true ↔ ∀ k < begun h, ∃ op ∈ h, op.ends = some k := by
    rw [allEnded_iff, i.next]
    refine forall_congr' fun k => imp_congr_right fun _ => ?_
    rw [i.ended]; simp
  have hl : s.left = false ↔ Op.leave ∉ h := by rw [← i.left]; simp
  rw [← hb, ← ha, ← hl]
  simp only [step]
  by_cases c : (!s.body && !s.left && allEnded s) = true
  · rw [if_pos c]
    simp only [Bool.and_eq_true, Bool.not_eq_true'] at c
    exact ⟨fun _ => ⟨c.1.2, c.1.1, c.2⟩, fun _ => ⟨_, rfl⟩⟩
  · rw [if_neg c]
    refine ⟨fun ⟨t, ht⟩ => (nomatch ht), fun ⟨x, y, z⟩ => absurd ?_ c⟩
    simp [x, y, z]

/-- **C315.**  The block ends with the group of exactly the exceptions that its body and its tasks raised, in the order in which they were raised, and normally if there was none. -/
theorem C315_outcome {h : List Op} {s : State} (e : run {} h = some s) :
    (h.filterMap Op.raises = [] → outcome s = .ok ()) ∧ (h.filterMap Op.raises ≠ [] → outcome s = .error (h.filterMap Op.raises)) := by
  have i := run_inv h e
  unfold outcome
  rw [i.errors]
  exact ⟨fun c => if_pos c, fun c => if_neg c⟩

/-- **C315.**  The tasks are cancelled exactly from the moment when the body or a task raises or `cancel` is called: before that nothing ends by cancellation, and after that everything that
runs may. -/
theorem C315_cancelled {pre : List Op} {s : State} (e : run {} pre = some s) :
    ((∃ op, op.unwinds = true ∧ (step s op).isSome = true) → ∃ c ∈ pre, c.cancels = true) ∧
    ((∃ c ∈ pre, c.cancels = true) → ∀ k < begun pre, (∀ op ∈ pre, op.ends ≠ some k) → (step s (.unwind k)).isSome = true ∨ (step s (.unwindEarly k)).isSome = true) := by
  have i := run_inv pre e
  have hc : s.cancelled = true ↔ ∃ c ∈ pre, c.cancels = true := by rw [i.cancelled, List.any_eq_true]
  rw [← hc]
  refine ⟨?_, ?_⟩
  · rintro ⟨op, hu, hs⟩
    cases hcn : s.cancelled with
    | true => rfl
    | false =>
      cases op <;> simp [Op.unwinds] at hu <;> simp [step, hcn] at hs
  · intro c k hk hn
    have h1 : s.phase k ≠ .absent := fun m => by have := (i.absent k).mp m; rw [i.next] at this; omega
    have h2 : s.phase k ≠ .ended := fun m => by
      have := (i.ended k).mp m
      obtain ⟨op, ho, he⟩ := List.mem_filterMap.mp this
      exact hn op ho he
    cases hp : s.phase k with
    | absent => exact absurd hp h1
    | ended => exact absurd hp h2
    | running => left; simp [step, c, finish, hp]
    | starting => right; simp [step, c, answer, hp]

/-- **C315.**  Starting a task raises RuntimeError exactly when the block has been left. -/
theorem C315_closed {h : List Op} {s : State} (e : run {} h = some s) : (Op.leave ∈ h → mayStart s = .error .runtimeError) ∧ (Op.leave ∉ h → mayStart s = .ok () ∧ (step s .startSoon).isSome = true ∧ (step s .start).isSome = true) := by
  have i := run_inv h e
  refine ⟨fun m => if_pos (i.left.mpr m), fun m => ?_⟩
  have hl : s.left = false := by
    cases c : s.left with
    | false => rfl
    | true => exact absurd (i.left.mp c) m
  exact ⟨if_neg (by simp [hl]), by simp [step, begin, hl], by simp [step, begin, hl]⟩

/-! ## C316 -/

/-- **C316.**  Each call of `start` gives exactly what its task did first: the value it reported, the exception it raised before that, RuntimeError if it returned without report; and it ends at
most once. -/
theorem C316_answers {h : List Op} {s : State} (e : run {} h = some s) :
    (∀ k a, (k, a) ∈ s.answers ↔ ∃ op ∈ h, op.answers = some (k, a)) ∧ (s.answers.map Prod.fst).Nodup := by
  have i := run_inv h e
  refine ⟨fun k a => ?_, i.one⟩
  rw [i.answers, List.mem_filterMap]

/-- **C316.**  An exception that `start` hands on is not reported by the block as well, and does not cancel the other tasks: it changes neither the outcome nor the cancellation. -/
theorem C316_handed_on {s t : State} {k x : Nat} (e : step s (.raiseEarly k x) = some t) : outcome t = outcome s ∧ t.cancelled = s.cancelled ∧ (k, .raised x) ∈ t.answers := by
  obtain ⟨_, rfl⟩ := answer_some.mp e
  exact ⟨rfl, rfl, by simp⟩

/-- The calls that started the tasks, in order. -/
def starts (h : List Op) : List Op := h.filter Op.begins

/-- The tasks before their report, and those with an answer, are those that were started by `start`. -/
structure Waits (h : List Op) (s : State) : Prop where
  next : s.next = (starts h).length
  absent : ∀ k, s.phase k = .absent ↔ s.next ≤ k
  iff : ∀ k, (starts h)[k]? = some .start ↔ s.phase k = .starting ∨ k ∈ s.answers.map Prod.fst

theorem Waits.same {h : List Op} {s t : State} {op : Op} (w : Waits h s) (hb : op.begins = false) (h1 : t.next = s.next) (h2 : ∀ k, t.phase k = .absent ↔ s.phase k = .absent)
    (h3 : ∀ k, (t.phase k = .starting ∨ k ∈ t.answers.map Prod.fst) ↔ (s.phase k = .starting ∨ k ∈ s.answers.map Prod.fst)) : Waits (h ++ [op]) t := by
  have hs : starts (h ++ [op]) = starts h := by simp [starts, hb]
  exact ⟨by rw [hs, h1, w.next], fun k => by rw [h2, h1, w.absent], fun k => by rw [hs, h3, w.iff]⟩

theorem Waits.begin {h : List Op} {s t : State} {op : Op} {p : Phase} (w : Waits h s) (i : Inv h s) (e : begin s p = some t) (hb : (op = .start ∧ p = .starting) ∨ (op = .startSoon ∧ p = .running)) :
    Waits (h ++ [op]) t := by
  obtain ⟨_, rfl⟩ := begin_some.mp e
  have hs : starts (h ++ [op]) = starts h ++ [op] := by rcases hb with ⟨rfl, _⟩ | ⟨rfl, _⟩ <;> simp [starts, Op.begins]
  refine ⟨?_, ?_, ?_⟩
  · show s.next + 1 = _; rw [hs, w.next]; simp
  · intro k
    show upd s.phase s.next p k = .absent ↔ s.next + 1 ≤ k
    unfold upd
    by_cases c : k = s.next
    · rw [if_pos c]; rcases hb with ⟨_, rfl⟩ | ⟨_, rfl⟩ <;> simp <;> omega
    · rw [if_neg c, w.absent]; omega
  · intro k
    show _ ↔ upd s.phase s.next p k = .starting ∨ k ∈ s.answers.map Prod.fst
    rw [hs]
    unfold upd
    by_cases c : k = s.next
    · subst c
      have hn : s.next ∉ s.answers.map Prod.fst := by
        intro m
        obtain ⟨q, hq, hq1⟩ := List.mem_map.mp m
        exact (i.past q hq).2 ((w.absent _).mpr (by omega))
      rw [w.next] at hn ⊢
      rcases hb with ⟨rfl, rfl⟩ | ⟨rfl, rfl⟩ <;> simp at hn ⊢
      exact hn
    · rw [if_neg c, ← w.iff]
      have hl := w.next
      by_cases d : k < s.next
      · rw [List.getElem?_append_left (by omega)]
      · rw [List.getElem?_eq_none (by simp; omega), List.getElem?_eq_none (by omega)]

theorem Waits.finish {h : List Op} {s t : State} {op : Op} {k : Nat} (w : Waits h s) (e : finish s k = some t) (hb : op.begins = false) : Waits (h ++ [op]) t := by
  obtain ⟨hr, rfl⟩ := finish_some.mp e
  refine w.same hb rfl (fun j => ?_) (fun j => ?_) <;> dsimp only [upd] <;> by_cases c : j = k
  · subst c; simp [hr]
  · rw [if_neg c]
  · subst c; simp [hr]
  · rw [if_neg c]

theorem Waits.answer {h : List Op} {s t : State} {op : Op} {k : Nat} {p : Phase} {a : Answer} (w : Waits h s) (e : answer s k p a = some t) (hp : p = .running ∨ p = .ended) (hb : op.begins = false) :
    Waits (h ++ [op]) t := by
  obtain ⟨hr, rfl⟩ := answer_some.mp e
  refine w.same hb rfl (fun j => ?_) (fun j => ?_) <;> dsimp only [upd] <;> by_cases c : j = k
  · subst c; rcases hp with rfl | rfl <;> simp [hr]
  · rw [if_neg c]
  · subst c; simp [hr]
  · rw [if_neg c]; simp [c]

theorem Waits.step {h : List Op} {s t : State} (w : Waits h s) (i : Inv h s) {op : Op} (e : step s op = some t) : Waits (h ++ [op]) t := by
  have keep : ∀ (u : State) (o : Op), o.begins = false → u.next = s.next → u.phase = s.phase → u.answers = s.answers → Waits (h ++ [o]) u := by
    intro u o hb h1 h2 h3
    exact w.same hb h1 (fun k => by rw [h2]) (fun k => by rw [h2, h3])
  cases op with
  | startSoon => exact w.begin i e (.inr ⟨rfl, rfl⟩)
  | start => exact w.begin i e (.inl ⟨rfl, rfl⟩)
  | started k v => exact w.answer e (.inl rfl) rfl
  | ret k => exact w.finish e rfl
  | raise k x =>
    simp only [TaskGroup.step, Option.map_eq_some_iff] at e
    obtain ⟨u, hu, rfl⟩ := e
    have := w.finish (op := .raise k x) hu rfl
    exact ⟨this.next, this.absent, this.iff⟩
  | unwind k =>
    simp only [TaskGroup.step] at e
    by_cases c : s.cancelled = true
    · rw [if_pos c] at e; exact w.finish e rfl
    · rw [if_neg c] at e; cases e
  | retEarly k => exact w.answer e (.inr rfl) rfl
  | raiseEarly k x => exact w.answer e (.inr rfl) rfl
  | unwindEarly k =>
    simp only [TaskGroup.step] at e
    by_cases c : s.cancelled = true
    · rw [if_pos c] at e; exact w.answer e (.inr rfl) rfl
    · rw [if_neg c] at e; cases e
  | bodyRet =>
    simp only [TaskGroup.step] at e
    by_cases c : s.body = true
    · rw [if_pos c] at e; cases e; exact keep _ _ rfl rfl rfl rfl
    · rw [if_neg c] at e; cases e
  | bodyRaise x =>
    simp only [TaskGroup.step] at e
    by_cases c : s.body = true
    · rw [if_pos c] at e; cases e; exact keep _ _ rfl rfl rfl rfl
    · rw [if_neg c] at e; cases e
  | bodyUnwind =>
    simp only [TaskGroup.step] at e
    by_cases c : (s.body && s.cancelled) = true
    · rw [if_pos c] at e; cases e; exact keep _ _ rfl rfl rfl rfl
    · rw [if_neg c] at e; cases e
  | cancel => simp only [TaskGroup.step] at e; cases e; exact keep _ _ rfl rfl rfl rfl
  | leave =>
    simp only [TaskGroup.step] at e
    by_cases c : (!s.body && !s.left && allEnded s) = true
    · rw [if_pos c] at e; cases e; exact keep _ _ rfl rfl rfl rfl
    · rw [if_neg c] at e; cases e

theorem run_waits (h : List Op) {s : State} (e : run {} h = some s) : Waits h s := by
  have key : ∀ (l p : List Op) (s t : State), Inv p s → Waits p s → run s l = some t → Waits (p ++ l) t := by
    intro l
    induction l with
    | nil => intro p s t _ w e; cases e; simpa using w
    | cons op l ih =>
      intro p s t i w e
      simp only [run, Option.bind_eq_some_iff] at e
      obtain ⟨u, hu, e⟩ := e
      have := ih (p ++ [op]) u t (step_inv i hu) (w.step i hu) e
      simpa using this
  have w0 : Waits [] {} := ⟨rfl, by simp, by simp [starts]⟩
  simpa using key h [] {} s init_inv w0 e

/-- **C316.**  Only calls of `start` get an answer, and none of them waits for ever: when the block has been left, every one of them has its answer. -/
theorem C316_ends {h : List Op} {s : State} (e : run {} h = some s) (k : Nat) :
    (k ∈ s.answers.map Prod.fst → (starts h)[k]? = some .start) ∧ (Op.leave ∈ h → (starts h)[k]? = some .start → k ∈ s.answers.map Prod.fst) := by
  have i := run_inv h e
  have w := run_waits h e
  refine ⟨fun m => (w.iff k).mpr (.inr m), fun hl m => ?_⟩
  rcases (w.iff k).mp m with c | c
  · have hk : k < s.next := by
      rw [w.next]
      exact (List.getElem?_eq_some_iff.mp m).1
    have := (i.quiet (i.left.mpr hl)).2 k hk
    rw [c] at this; cases this
  · exact c

/-- Three tasks, one of them started with `start`: one raises, the others are cancelled, and one of these raises as well. -/
example : ((run {} [.startSoon, .start, .started 1 7, .startSoon, .raise 0 5, .bodyUnwind, .unwind 1, .raise 2 6, .leave]).map fun s => (outcome s |>.toOption, s.errors, s.answers)) =
    some (none, [5, 6], [(1, .value 7)]) := by decide
/-- The block cannot be left while a task runs, and nothing ends by cancellation without a reason. -/
example : (run {} [.startSoon, .bodyRet, .leave]).isNone = true ∧ (run {} [.startSoon, .unwind 0]).isNone = true ∧ (run {} [.startSoon, .bodyRet, .ret 0, .leave]).isSome = true := by decide

end Verif.TaskGroup
