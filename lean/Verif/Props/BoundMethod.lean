import Verif.Props.Broadcaster

set_option linter.unusedSectionVars false
set_option linter.unusedSimpArgs false
set_option linter.unusedVariables false

/-!
# Bound methods as subscribers, over whole histories: C270
-/

namespace Verif.Broadcaster

/-- The operation subscribes the method `obj.fn` to a class that shares its subscribers with `c`. -/
def Op.subscribes (owner : Nat → Nat) (c obj fn : Nat) : Op → Bool
  | .subscribe c' (.method o f) => owner c' == owner c && o == obj && f == fn
  | _ => false

/-- The operation unsubscribes the object itself (not one of its methods). -/
def Op.unsubscribesObject (obj : Nat) : Op → Bool
  | .unsubscribe _ (.plain h) => h == obj
  | _ => false

/-- The operation is the collection of an object. -/
def Op.collects (h : Nat) : Op → Bool
  | .collect x => x == h
  | _ => false

theorem refEq_method_ne {b : Hub} {eqv : Nat → Nat → Bool} (hid : ∀ x y, eqv x y = true → x = y) {obj fn h : Nat} (hne : h ≠ obj) :
    refEq b eqv (.method obj fn) h = false := by
  simp only [refEq, Bool.and_eq_false_iff, Bool.or_eq_false_iff, beq_eq_false_iff_ne]
  refine .inr ⟨fun e => hne e.symm, ?_⟩
  cases he : eqv obj h with
  | false => rfl
  | true => exact absurd (hid _ _ he).symm hne

theorem count_removeRef {b : Hub} {eqv : Nat → Nat → Bool} {m : Cb} {h : Nat} (hm : refEq b eqv m h = false) :
    ∀ l : List Cb, (removeRef b eqv h l).count m = l.count m := by
  intro l
  induction l with
  | nil => rfl
  | cons r l ih =>
    rw [removeRef]
    by_cases hr : refEq b eqv r h = true
    · rw [if_pos hr, List.count_cons_of_ne]
      rintro rfl
      rw [hm] at hr; cases hr
    · rw [if_neg hr, List.count_cons, List.count_cons, ih]

theorem isSame_method (x : Cb) (obj fn : Nat) : isSame x (.method obj fn) = false := by
  cases x <;> rfl

theorem step_dead (owner : Nat → Nat) (eqv : Nat → Nat → Bool) (b : Hub) (op : Op) :
    ∀ h, h ∈ (step owner eqv b op).1.dead ↔ op.collects h = true ∨ h ∈ b.dead := by
  intro h
  cases op with
  | subscribe c cb => simp only [step, subscribe, Op.collects]; split <;> (try split) <;> simp [setList]
  | unsubscribe c cb => simp only [step, unsubscribe, Op.collects]; split <;> (try split) <;> simp [setList]
  | collect x =>
    simp only [step, Op.collects, List.mem_cons, beq_iff_eq]
    rw [@eq_comm _ h x]
  | broadcast c a beh => simp only [step, cleanup, Op.collects]; split <;> simp [setList]
  | count c => simp [step, cleanup, Op.collects, setList]

theorem run_dead (owner : Nat → Nat) (eqv : Nat → Nat → Bool) : ∀ (ops : List Op) (b : Hub) (h : Nat),
    h ∈ (run owner eqv b ops).1.dead ↔ (∃ op ∈ ops, op.collects h = true) ∨ h ∈ b.dead := by
  intro ops
  induction ops with
  | nil => intro b h; simp [run]
  | cons op ops ih =>
    intro b h
    simp only [run]
    rw [ih, step_dead]
    simp only [List.mem_cons, exists_eq_or_imp]
    constructor
    · rintro (h | h | h)
      · exact .inl (.inr h)
      · exact .inl (.inl h)
      · exact .inr h
    · rintro ((h | h) | h)
      · exact .inr (.inl h)
      · exact .inl h
      · exact .inr (.inr h)

theorem alive_method (b : Hub) (obj fn : Nat) : alive b (.method obj fn) = true ↔ obj ∉ b.dead ∧ fn ∉ b.dead := by
  simp [alive, Cb.needs]

theorem step_count {owner : Nat → Nat} {eqv : Nat → Nat → Bool} (hid : ∀ x y, eqv x y = true → x = y) (b : Hub) (op : Op) (c obj fn : Nat)
    (hu : op.unsubscribesObject obj = false) (ha : alive b (.method obj fn) = true) :
    ((step owner eqv b op).1.lists (owner c)).count (.method obj fn) =
      (b.lists (owner c)).count (.method obj fn) + if op.subscribes owner c obj fn then 1 else 0 := by
  have hcl : ∀ c', ((cleanup b (owner c')).1.lists (owner c)).count (.method obj fn) = (b.lists (owner c)).count (.method obj fn) := by
    intro c'
    simp only [cleanup, setList]
    split
    · next e => rw [List.count_filter ha, e]
    · rfl
  cases op with
  | subscribe c' cb =>
    cases cb with
    | plain h =>
      simp only [Op.subscribes, Bool.false_eq_true, if_false, Nat.add_zero, step, subscribe]
      split
      · split
        · rfl
        · simp only [setList]
          split
          · next e => rw [List.count_append, e]; simp
          · rfl
      · rfl
    | method o f =>
      simp only [step]
      have hany : (b.lists (owner c')).any (fun r => alive b r && isSame r (.method o f)) = false := by
        rw [List.any_eq_false]; intro x _; simp [isSame_method]
      by_cases hs : Op.subscribes owner c obj fn (.subscribe c' (.method o f)) = true
      · simp only [Op.subscribes, Bool.and_eq_true, beq_iff_eq] at hs
        obtain ⟨⟨h1, rfl⟩, rfl⟩ := hs
        rw [if_pos ha]
        rw [subscribe, hany]
        simp [setList, h1, Op.subscribes]
      · rw [if_neg hs, Nat.add_zero]
        split
        · simp only [subscribe, hany, Bool.false_eq_true, if_false, setList]
          split
          · next e =>
            rw [List.count_append, e, List.count_cons_of_ne]
            · simp
            · intro e'
              cases e'
              exact hs (by simp [Op.subscribes, e])
          · rfl
        · rfl
  | unsubscribe c' cb =>
    simp only [Op.subscribes, Bool.false_eq_true, if_false, Nat.add_zero, step, unsubscribe]
    cases cb with
    | method o f =>
      have hany : (b.lists (owner c')).any (fun r => alive b r && isSame r (.method o f)) = false := by
        rw [List.any_eq_false]; intro x _; simp [isSame_method]
      simp [hany]
    | plain h =>
      have hne : h ≠ obj := by simpa [Op.unsubscribesObject] using hu
      split
      · split
        · simp only [setList]
          split
          · next e =>
            simp only [Cb.holder]
            rw [count_removeRef (refEq_method_ne hid hne), e]
          · rfl
        · rfl
      · rfl
  | collect x => simp [step, Op.subscribes]
  | broadcast c' a beh =>
    simp only [Op.subscribes, Bool.false_eq_true, if_false, Nat.add_zero, step]
    split
    · exact hcl c'
    · rfl
  | count c' =>
    simp only [Op.subscribes, Bool.false_eq_true, if_false, Nat.add_zero, step]
    exact hcl c'

theorem run_count {owner : Nat → Nat} {eqv : Nat → Nat → Bool} (hid : ∀ x y, eqv x y = true → x = y) (c obj fn : Nat) : ∀ (ops : List Op) (b : Hub),
    (∀ op ∈ ops, op.unsubscribesObject obj = false) → alive (run owner eqv b ops).1 (.method obj fn) = true →
    ((run owner eqv b ops).1.lists (owner c)).count (.method obj fn) =
      (b.lists (owner c)).count (.method obj fn) + ops.countP (Op.subscribes owner c obj fn) := by
  intro ops
  induction ops with
  | nil => intro b _ _; simp [run]
  | cons op ops ih =>
    intro b hu ha
    have hab : alive b (.method obj fn) = true := by
      rw [alive_method] at ha ⊢
      rw [run_dead, run_dead] at ha
      exact ⟨fun h => ha.1 (.inr h), fun h => ha.2 (.inr h)⟩
    simp only [run] at ha ⊢
    rw [ih _ (fun o ho => hu o (List.mem_cons_of_mem _ ho)) ha, step_count hid b op c obj fn (hu op List.mem_cons_self) hab, List.countP_cons]
    omega

/-- C270: after any history in which the object itself is not unsubscribed, a broadcast that no callback aborts calls the method exactly as often as it was subscribed, as long as its object and its function live. -/
theorem C270_delivered {owner : Nat → Nat} {eqv : Nat → Nat → Bool} (hid : ∀ x y, eqv x y = true → x = y) (ops : List Op) (c obj fn : Nat)
    (hu : ∀ op ∈ ops, op.unsubscribesObject obj = false) (ho : ∀ op ∈ ops, op.collects obj = false) (hf : ∀ op ∈ ops, op.collects fn = false)
    (beh : Cb → Behaviour) (hb : ∀ cb, beh cb ≠ .aborts) :
    ∃ cs, (step owner eqv (run owner eqv {} ops).1 (.broadcast c true beh)).2 = .called cs true ∧
      cs.count (.method obj fn) = ops.countP (Op.subscribes owner c obj fn) := by
  have hdead : ∀ h, (∀ op ∈ ops, op.collects h = false) → h ∉ (run owner eqv {} ops).1.dead := by
    intro h hh hd
    rw [run_dead] at hd
    rcases hd with ⟨op, hop, hc⟩ | hd
    · rw [hh op hop] at hc; cases hc
    · simp at hd
  have ha : alive (run owner eqv {} ops).1 (.method obj fn) = true := (alive_method _ _ _).2 ⟨hdead _ ho, hdead _ hf⟩
  refine ⟨((run owner eqv {} ops).1.lists (owner c)).filter (alive (run owner eqv {} ops).1), ?_, ?_⟩
  · simp only [step, if_true, cleanup]
    rw [deliver_all (fun c _ => hb c)]
  · rw [List.count_filter ha, run_count hid c obj fn ops {} hu ha]
    simp

/-- C270: once the object or the function was collected, no broadcast calls the method, whatever the history and whatever the callbacks do. -/
theorem C270_released (owner : Nat → Nat) (eqv : Nat → Nat → Bool) (ops : List Op) (c obj fn : Nat)
    (hc : ∃ op ∈ ops, op.collects obj = true ∨ op.collects fn = true) (accepts : Bool) (beh : Cb → Behaviour) (cs : List Cb) (done : Bool)
    (h : (step owner eqv (run owner eqv {} ops).1 (.broadcast c accepts beh)).2 = .called cs done) : Cb.method obj fn ∉ cs := by
  have ha : ¬ alive (run owner eqv {} ops).1 (.method obj fn) = true := by
    rw [alive_method, run_dead, run_dead]
    obtain ⟨op, hop, hc⟩ := hc
    rintro ⟨h1, h2⟩
    rcases hc with hc | hc
    · exact h1 (.inl ⟨op, hop, hc⟩)
    · exact h2 (.inl ⟨op, hop, hc⟩)
  have hsub : ∀ l : List Cb, ∀ x ∈ (deliver beh l).1, x ∈ l := by
    intro l
    induction l with
    | nil => intro x hx; simp [deliver] at hx
    | cons a l ih =>
      intro x hx
      rw [deliver] at hx
      split at hx
      · simp only [List.mem_singleton] at hx; exact hx ▸ List.mem_cons_self
      · rcases List.mem_cons.1 hx with hx | hx
        · exact hx ▸ List.mem_cons_self
        · exact List.mem_cons_of_mem _ (ih x hx)
  simp only [step] at h
  split at h
  · simp only [cleanup, Out.called.injEq] at h
    intro hm
    rw [← h.1] at hm
    exact ha (List.mem_filter.1 (hsub _ _ hm)).2
  · cases h

/-- Unsubscribing the object itself, when it is subscribed too, takes a subscription of its method away. -/
theorem C270_limit :
    (run id byId {} [.subscribe 0 (.method 1 5), .subscribe 0 (.plain 1), .unsubscribe 0 (.plain 1), .broadcast 0 true (fun _ => .returns)]).2 =
      [.unit, .unit, .unit, .called [.plain 1] true] ∧
    Op.subscribes id 0 1 5 (.subscribe 0 (.method 1 5)) = true := by decide

/-- Two subscriptions through classes that share their list, a failed unsubscription, and the collection of another object. -/
example : (run (fun _ => 0) byId {} [.subscribe 0 (.method 1 5), .subscribe 2 (.method 1 5), .unsubscribe 0 (.method 1 5), .subscribe 0 (.method 2 5), .collect 2,
    .broadcast 1 true (fun _ => .returns)]).2 = [.unit, .unit, .unit, .unit, .unit, .called [.method 1 5, .method 1 5] true] := by decide

/-- A function that was replaced in its class and collected. -/
example : (run id byId {} [.subscribe 0 (.method 1 5), .collect 5, .broadcast 0 true (fun _ => .returns)]).2 = [.unit, .unit, .called [] true] := by decide

end Verif.Broadcaster
