import Verif.Model.Broadcaster

/-!
# Broadcaster: C37, C38, C98, C99
-/

set_option linter.unusedSectionVars false
set_option linter.unusedSimpArgs false
set_option linter.unusedVariables false

namespace Verif.Broadcaster

/-! ### Specification: the current subscribers of every class, oldest first, no repetitions -/

structure Spec where
  gone : Nat → Bool := fun _ => false
  subs : Nat → List Nat := fun _ => []

/-- Next abstract state.  `sib c c'`: the classes share one subscriber list. -/
def Spec.next (sib : Nat → Nat → Bool) (s : Spec) : Op → Spec
  | .subscribe c (.plain h) => if s.gone h then s else
      { s with subs := fun c' => if sib c c' then (if h ∈ s.subs c' then s.subs c' else s.subs c' ++ [h]) else s.subs c' }
  | .unsubscribe c (.plain h) => if s.gone h then s else
      { s with subs := fun c' => if sib c c' then (s.subs c').filter (· != h) else s.subs c' }
  | .collect h => { gone := fun x => x == h || s.gone x, subs := fun c => (s.subs c).filter (· != h) }
  | _ => s

/-- Right result in the abstract state. -/
def Spec.ok (s : Spec) : Op → Out → Prop
  | .broadcast c true beh, o => (∀ h ∈ s.subs c, beh (.plain h) ≠ .aborts) → o = .called ((s.subs c).map .plain) true
  | .broadcast c false beh, o => o = .valueError
  | .count c, o => o = .count (s.subs c).length
  | _, _ => True

def Spec.allOk (sib : Nat → Nat → Bool) : Spec → List Op → List Out → Prop
  | _, [], outs => outs = []
  | s, op :: ops, outs => ∃ o rest, outs = o :: rest ∧ s.ok op o ∧ (s.next sib op).allOk sib ops rest

/-- Only plain callbacks are used. -/
def Op.isPlain : Op → Prop
  | .subscribe _ (.method _ _) => False
  | .unsubscribe _ (.method _ _) => False
  | _ => True

def shared (owner : Nat → Nat) (c c' : Nat) : Bool := owner c == owner c'

structure Rel (owner : Nat → Nat) (b : Hub) (s : Spec) : Prop where
  gone : ∀ h, alive b (.plain h) = !s.gone h
  subs : ∀ c, (b.lists (owner c)).filter (alive b) = (s.subs c).map .plain
  plain : ∀ o, ∀ r ∈ b.lists o, ∃ h, r = .plain h
  nodup : ∀ c, (s.subs c).Nodup

theorem plain_inj {a b : Nat} (h : Cb.plain a = Cb.plain b) : a = b := by cases h; rfl

theorem any_same {owner : Nat → Nat} {b : Hub} {s : Spec} (r : Rel owner b s) (c h : Nat) :
    (b.lists (owner c)).any (fun r => alive b r && isSame r (.plain h)) = decide (h ∈ s.subs c) := by
  rw [Bool.eq_iff_iff]
  simp only [List.any_eq_true, Bool.and_eq_true, decide_eq_true_eq]
  have : h ∈ s.subs c ↔ Cb.plain h ∈ (b.lists (owner c)).filter (alive b) := by
    rw [r.subs c, List.mem_map]
    constructor
    · intro hh; exact ⟨h, hh, rfl⟩
    · rintro ⟨a, ha, e⟩; rw [plain_inj e] at ha; exact ha
  rw [this, List.mem_filter]
  constructor
  · rintro ⟨x, h1, h2, h3⟩
    cases x with
    | plain a => simp [isSame] at h3; subst h3; exact ⟨h1, h2⟩
    | method => simp [isSame] at h3
  · rintro ⟨h1, h2⟩; exact ⟨_, h1, h2, by simp [isSame]⟩

theorem alive_congr {b c : Hub} (h : b.dead = c.dead) : alive b = alive c := by
  funext x; simp [alive, h]

theorem nodup_filter_erase {l : List Cb} {p : Cb → Bool} {x : Cb} (hx : p x = true) (hn : (l.filter p).Nodup) :
    (l.erase x).filter p = (l.filter p).filter (· != x) := by
  induction l with
  | nil => rfl
  | cons r rs ih =>
    by_cases e : r = x
    · subst e
      rw [List.erase_cons_head, List.filter_cons_of_pos hx]
      rw [List.filter_cons_of_pos hx, List.nodup_cons] at hn
      rw [List.filter_cons_of_neg (by simp)]
      symm
      rw [List.filter_eq_self]
      intro a ha
      have : a ≠ r := fun e => hn.1 (e ▸ ha)
      simpa using this
    · rw [List.erase_cons_tail (by simp [e])]
      by_cases hr : p r = true
      · rw [List.filter_cons_of_pos hr, List.nodup_cons] at hn
        rw [List.filter_cons_of_pos hr, List.filter_cons_of_pos hr, List.filter_cons_of_pos (by simp [e]), ih hn.2]
      · rw [List.filter_cons_of_neg hr] at hn
        rw [List.filter_cons_of_neg hr, List.filter_cons_of_neg hr, ih hn]

theorem removeRef_id {b : Hub} {eqv : Nat → Nat → Bool} (hid : ∀ x y, eqv x y = true → x = y) (h : Nat) {l : List Cb}
    (hp : ∀ r ∈ l, ∃ h, r = .plain h) : removeRef b eqv h l = l.erase (.plain h) := by
  induction l with
  | nil => rfl
  | cons r rs ih =>
    obtain ⟨a, rfl⟩ := hp r (by simp)
    simp only [removeRef]
    by_cases e : a = h
    · subst e; simp [refEq]
    · have h1 : refEq b eqv (.plain a) h = false := by
        rw [Bool.eq_false_iff]
        intro hh
        simp only [refEq, Bool.or_eq_true, beq_iff_eq, Bool.and_eq_true] at hh
        rcases hh with hh | ⟨_, hh⟩
        · exact e hh
        · exact e (hid _ _ hh)
      have hne : Cb.plain a ≠ Cb.plain h := fun e' => e (plain_inj e')
      rw [h1, List.erase_cons_tail (by simp [hne]), ih (fun r hr => hp r (by simp [hr]))]
      simp

theorem filter_map_plain (l : List Nat) (h : Nat) : (l.map Cb.plain).filter (· != .plain h) = (l.filter (· != h)).map .plain := by
  rw [List.filter_map]
  congr 1
  apply List.filter_congr
  intro a _
  by_cases e : a = h
  · subst e; simp
  · have : (Cb.plain a != Cb.plain h) = true := bne_iff_ne.2 (fun e' => e (plain_inj e'))
    simp only [Function.comp, this]
    simp [e]

theorem deliver_all {beh : Cb → Behaviour} {l : List Cb} (h : ∀ c ∈ l, beh c ≠ .aborts) : deliver beh l = (l, true) := by
  induction l with
  | nil => rfl
  | cons c cs ih =>
    rw [deliver, if_neg (h c (by simp)), ih (fun c hc => h c (by simp [hc]))]

theorem Rel.cleanup {owner : Nat → Nat} {b : Hub} {s : Spec} (r : Rel owner b s) (c : Nat) :
    Rel owner (cleanup b (owner c)).1 s ∧ (Broadcaster.cleanup b (owner c)).2 = (s.subs c).map .plain := by
  refine ⟨⟨r.gone, ?_, ?_, r.nodup⟩, r.subs c⟩
  · intro c'
    have : alive (Broadcaster.cleanup b (owner c)).1 = alive b := alive_congr rfl
    rw [this, ← r.subs c']
    simp only [Broadcaster.cleanup, setList]
    split
    · next e => rw [List.filter_filter, e]; simp
    · rfl
  · intro o x hx
    simp only [Broadcaster.cleanup, setList] at hx
    split at hx
    · next e => exact r.plain _ x (List.mem_filter.1 hx).1
    · exact r.plain _ x hx

theorem Rel.step {owner : Nat → Nat} {eqv : Nat → Nat → Bool} (hid : ∀ x y, eqv x y = true → x = y) {b : Hub} {s : Spec}
    (r : Rel owner b s) (op : Op) (hp : op.isPlain) :
    Rel owner (step owner eqv b op).1 (s.next (shared owner) op) ∧ s.ok op (step owner eqv b op).2 := by
  cases op with
  | subscribe c cb =>
    refine ⟨?_, trivial⟩
    cases cb with
    | method => exact absurd hp (by simp [Op.isPlain])
    | plain h =>
      have hg := r.gone h
      simp only [Broadcaster.step, Spec.next]
      cases hx : s.gone h with
      | true => rw [hx] at hg; simp [hg]; exact r
      | false =>
        rw [hx] at hg
        have hal : alive b (.plain h) = true := hg
        simp only [hal, if_true, Bool.false_eq_true, if_false]
        have eqs : ∀ c', owner c = owner c' → s.subs c' = s.subs c := by
          intro c' e
          have h1 := r.subs c'
          rw [← e, r.subs c] at h1
          exact (List.map_inj_right (fun _ _ => plain_inj)).1 h1.symm
        have nd : ∀ c', (if shared owner c c' = true then (if h ∈ s.subs c' then s.subs c' else s.subs c' ++ [h]) else s.subs c').Nodup := by
          intro c'
          split
          · split
            · exact r.nodup c'
            · next hn =>
              rw [List.nodup_append]
              refine ⟨r.nodup c', by simp, ?_⟩
              intro a ha b' hb'
              simp at hb'; subst hb'
              exact fun e => hn (e ▸ ha)
          · exact r.nodup c'
        unfold subscribe
        rw [any_same r c h]
        by_cases hm : h ∈ s.subs c
        · simp only [hm, decide_true, if_true]
          refine ⟨r.gone, ?_, r.plain, nd⟩
          intro c'
          rw [r.subs c']
          simp only [shared, beq_iff_eq]
          split
          · next e => rw [eqs c' e, if_pos hm]
          · rfl
        · simp only [hm, decide_false, Bool.false_eq_true, if_false]
          refine ⟨r.gone, ?_, ?_, nd⟩
          · intro c'
            have : alive (setList b (owner c) (b.lists (owner c) ++ [Cb.plain h])) = alive b := alive_congr rfl
            rw [this]
            simp only [setList, shared, beq_iff_eq]
            by_cases e : owner c = owner c'
            · rw [if_pos e.symm, if_pos e, eqs c' e, if_neg hm, List.filter_append, r.subs c]
              simp [hal]
            · rw [if_neg (fun e' => e e'.symm), if_neg e, r.subs c']
          · intro o x hx
            simp only [setList] at hx
            split at hx
            · rw [List.mem_append] at hx
              rcases hx with hx | hx
              · exact r.plain _ x hx
              · simp at hx; exact ⟨h, hx⟩
            · exact r.plain _ x hx
  | unsubscribe c cb =>
    refine ⟨?_, trivial⟩
    cases cb with
    | method => exact absurd hp (by simp [Op.isPlain])
    | plain h =>
      have hg := r.gone h
      simp only [Broadcaster.step, Spec.next]
      cases hx : s.gone h with
      | true => rw [hx] at hg; simp [hg]; exact r
      | false =>
        rw [hx] at hg
        have hal : alive b (.plain h) = true := hg
        simp only [hal, if_true, Bool.false_eq_true, if_false]
        have eqs : ∀ c', owner c = owner c' → s.subs c' = s.subs c := by
          intro c' e
          have h1 := r.subs c'
          rw [← e, r.subs c] at h1
          exact (List.map_inj_right (fun _ _ => plain_inj)).1 h1.symm
        have nd : ∀ c', (if shared owner c c' = true then (s.subs c').filter (· != h) else s.subs c').Nodup := by
          intro c'
          split
          · exact List.Nodup.sublist (List.filter_sublist) (r.nodup c')
          · exact r.nodup c'
        unfold unsubscribe
        rw [any_same r c h]
        by_cases hm : h ∈ s.subs c
        · simp only [hm, decide_true, if_true]
          refine ⟨r.gone, ?_, ?_, nd⟩
          · intro c'
            have : alive (setList b (owner c) (removeRef b eqv (Cb.plain h).holder (b.lists (owner c)))) = alive b := alive_congr rfl
            rw [this]
            simp only [setList, shared, beq_iff_eq]
            by_cases e : owner c = owner c'
            · rw [if_pos e.symm, if_pos e, eqs c' e]
              simp only [Cb.holder]
              rw [removeRef_id hid h (r.plain _), nodup_filter_erase hal, r.subs c, filter_map_plain]
              rw [r.subs c]
              exact List.Pairwise.map _ (fun a b hne e => hne (plain_inj e)) (r.nodup c)
            · rw [if_neg (fun e' => e e'.symm), if_neg e, r.subs c']
          · intro o x hx
            simp only [setList] at hx
            split at hx
            · simp only [Cb.holder] at hx
              rw [removeRef_id hid h (r.plain _)] at hx
              exact r.plain _ x (List.mem_of_mem_erase hx)
            · exact r.plain _ x hx
        · simp only [hm, decide_false, Bool.false_eq_true, if_false]
          refine ⟨r.gone, ?_, r.plain, nd⟩
          intro c'
          rw [r.subs c']
          simp only [shared, beq_iff_eq]
          split
          · next e =>
            rw [eqs c' e]
            congr 1
            symm
            rw [List.filter_eq_self]
            intro a ha
            have : a ≠ h := fun e => hm (e ▸ ha)
            simpa using this
          · rfl
  | collect x =>
    refine ⟨⟨?_, ?_, r.plain, ?_⟩, trivial⟩
    · intro y
      have := r.gone y
      simp only [Broadcaster.step, Spec.next, alive, Cb.needs, List.all_cons, List.all_nil, Bool.and_true, List.contains_cons] at this ⊢
      rw [Bool.not_or, this, Bool.not_or]
    · intro c
      simp only [Broadcaster.step, Spec.next]
      rw [← filter_map_plain, ← r.subs c, List.filter_filter]
      apply List.filter_congr
      intro y hy
      obtain ⟨a, rfl⟩ := r.plain _ y hy
      simp only [alive, Cb.needs, List.all_cons, List.all_nil, Bool.and_true, List.contains_cons, Bool.not_or]
      by_cases e : a = x
      · subst e; simp
      · have : (Cb.plain a != Cb.plain x) = true := bne_iff_ne.2 (fun e' => e (plain_inj e'))
        rw [this]
        simp [e]
    · intro c
      exact List.Nodup.sublist (List.filter_sublist) (r.nodup c)
  | broadcast c acc beh =>
    cases acc with
    | false => exact ⟨r, rfl⟩
    | true =>
      obtain ⟨h1, h2⟩ := r.cleanup c
      refine ⟨h1, fun hb => ?_⟩
      simp only [Broadcaster.step, if_true]
      rw [h2, deliver_all]
      intro cb hcb
      rw [List.mem_map] at hcb
      obtain ⟨h, hh, rfl⟩ := hcb
      exact hb h hh
  | count c =>
    obtain ⟨h1, h2⟩ := r.cleanup c
    refine ⟨h1, ?_⟩
    simp only [Broadcaster.step, Spec.ok]
    rw [h2, List.length_map]

theorem Rel.run {owner : Nat → Nat} {eqv : Nat → Nat → Bool} (hid : ∀ x y, eqv x y = true → x = y) (ops : List Op)
    (hp : ∀ op ∈ ops, op.isPlain) {b : Hub} {s : Spec} (r : Rel owner b s) :
    s.allOk (shared owner) ops (run owner eqv b ops).2 := by
  induction ops generalizing b s with
  | nil => rfl
  | cons op ops ih =>
    have h := r.step hid op (hp op (by simp)) (eqv := eqv)
    exact ⟨_, _, rfl, h.2, ih (fun o ho => hp o (by simp [ho])) h.1⟩

def Spec.after (sib : Nat → Nat → Bool) : Spec → List Op → Spec
  | s, [] => s
  | s, op :: ops => (s.next sib op).after sib ops

theorem Rel.after {owner : Nat → Nat} {eqv : Nat → Nat → Bool} (hid : ∀ x y, eqv x y = true → x = y) (ops : List Op)
    (hp : ∀ op ∈ ops, op.isPlain) {b : Hub} {s : Spec} (r : Rel owner b s) :
    Rel owner (Broadcaster.run owner eqv b ops).1 (s.after (shared owner) ops) := by
  induction ops generalizing b s with
  | nil => exact r
  | cons op ops ih => exact ih (fun o ho => hp o (by simp [ho])) (r.step hid op (hp op (by simp))).1

theorem rel_init (owner : Nat → Nat) : Rel owner {} {} :=
  ⟨fun _ => rfl, fun _ => rfl, fun _ _ h => (List.not_mem_nil h).elim, fun _ => List.nodup_nil⟩

/-- C37, the whole history: every broadcast calls exactly the current subscribers, once each and in order of subscription, ordinary failures notwithstanding. -/
theorem C37_history {owner : Nat → Nat} {eqv : Nat → Nat → Bool} (hid : ∀ x y, eqv x y = true → x = y) (ops : List Op)
    (hp : ∀ op ∈ ops, op.isPlain) : ({} : Spec).allOk (shared owner) ops (run owner eqv {} ops).2 :=
  (rel_init owner).run hid ops hp

/-- C37: after any history the subscribers of a class have no repetition, so no broadcast calls a callback twice. -/
theorem C37_once {owner : Nat → Nat} {eqv : Nat → Nat → Bool} (hid : ∀ x y, eqv x y = true → x = y) (ops : List Op)
    (hp : ∀ op ∈ ops, op.isPlain) (c : Nat) (beh : Cb → Behaviour)
    (hb : ∀ h, beh (.plain h) ≠ .aborts) :
    ∃ cs : List Nat, (step owner eqv (run owner eqv {} ops).1 (.broadcast c true beh)).2 = .called (cs.map .plain) true ∧ cs.Nodup ∧
      ∀ h, h ∈ cs ↔ h ∈ (({} : Spec).after (shared owner) ops).subs c := by
  have r := (rel_init owner).after hid ops hp
  exact ⟨_, (r.step hid (.broadcast c true beh) trivial).2 (fun h _ => hb h), r.nodup c, fun _ => Iff.rfl⟩

/-- C37: a callback that is cancelled (or raises another exception that is no `Exception`) ends the broadcast: the subscribers up to it have been called, and the exception is passed on. -/
theorem C37_aborted {owner : Nat → Nat} {eqv : Nat → Nat → Bool} (hid : ∀ x y, eqv x y = true → x = y) (ops : List Op)
    (hp : ∀ op ∈ ops, op.isPlain) (c : Nat) (beh : Cb → Behaviour) (pre post : List Nat) (h : Nat)
    (hs : (({} : Spec).after (shared owner) ops).subs c = pre ++ h :: post) (hpre : ∀ x ∈ pre, beh (.plain x) ≠ .aborts) (hh : beh (.plain h) = .aborts) :
    (step owner eqv (run owner eqv {} ops).1 (.broadcast c true beh)).2 = .called ((pre ++ [h]).map .plain) false := by
  have r := (rel_init owner).after (eqv := eqv) hid ops hp
  have key : ∀ pre : List Nat, (∀ x ∈ pre, beh (.plain x) ≠ .aborts) →
      deliver beh ((pre ++ h :: post).map .plain) = ((pre ++ [h]).map .plain, false) := by
    intro pre
    induction pre with
    | nil => intro _; simp [deliver, hh]
    | cons x pre ih =>
      intro hx
      have := ih (fun y hy => hx y (List.mem_cons_of_mem _ hy))
      simp only [List.cons_append, List.map_cons, deliver, if_neg (hx x List.mem_cons_self), this]
  simp only [step, cleanup, if_true]
  rw [r.subs c, hs, key pre hpre]

/-- C37: directly after `unsubscribe` the callback is not among those called. -/
theorem C37_unsubscribed {owner : Nat → Nat} {eqv : Nat → Nat → Bool} (hid : ∀ x y, eqv x y = true → x = y) (ops : List Op)
    (hp : ∀ op ∈ ops, op.isPlain) (c h : Nat) (beh : Cb → Behaviour) (hb : ∀ h, beh (.plain h) ≠ .aborts)
    (cs : List Cb) (done : Bool)
    (ho : (step owner eqv (step owner eqv (run owner eqv {} ops).1 (.unsubscribe c (.plain h))).1 (.broadcast c true beh)).2 = .called cs done) :
    Cb.plain h ∉ cs := by
  have r := (rel_init owner).after hid ops hp
  have r1 := (r.step (eqv := eqv) hid (.unsubscribe c (.plain h)) trivial).1
  have h2 := (r1.step (eqv := eqv) hid (.broadcast c true beh) trivial).2 (fun h _ => hb h)
  rw [ho] at h2
  injection h2 with h3 h4
  rw [h3, List.mem_map]
  rintro ⟨a, ha, e⟩
  rw [plain_inj e] at ha
  have key : ∀ s : Spec, Rel owner (run owner eqv {} ops).1 s → h ∉ (s.next (shared owner) (.unsubscribe c (.plain h))).subs c := by
    intro s rs hm
    simp only [Spec.next] at hm
    cases hg : s.gone h with
    | true =>
      rw [hg] at hm
      simp only [if_true] at hm
      have h5 : Cb.plain h ∈ ((run owner eqv {} ops).1.lists (owner c)).filter (alive (run owner eqv {} ops).1) := by
        rw [rs.subs c]; exact List.mem_map.2 ⟨h, hm, rfl⟩
      have h6 := (List.mem_filter.1 h5).2
      rw [rs.gone h, hg] at h6
      simp at h6
    | false =>
      rw [hg] at hm
      simp [shared] at hm
  exact key _ r ha

def byId (x y : Nat) : Bool := x == y

/-- Non-vacuity: double subscription, a failing callback, a collected one. -/
example : (run id byId {} [.subscribe 0 (.plain 1), .subscribe 0 (.plain 2), .subscribe 0 (.plain 1), .subscribe 0 (.plain 3), .collect 3,
    .broadcast 0 true (fun _ => .fails), .unsubscribe 0 (.plain 1), .broadcast 0 true (fun _ => .returns), .count 0]).2 =
    [.unit, .unit, .unit, .unit, .unit, .called [.plain 1, .plain 2] true, .unit, .called [.plain 2] true, .count 1] := by decide

/-! ### C38: isolation of subclasses -/

theorem step_other (owner : Nat → Nat) (eqv : Nat → Nat → Bool) (b : Hub) (op : Op) (o : Nat)
    (h : ∀ c, op ≠ .collect c) (hop : ∀ c cb, op = .subscribe c cb → owner c ≠ o) (hop2 : ∀ c cb, op = .unsubscribe c cb → owner c ≠ o) :
    ((step owner eqv b op).1.lists o).filter (alive b) = (b.lists o).filter (alive b) ∧ (step owner eqv b op).1.dead = b.dead := by
  cases op with
  | collect x => exact absurd rfl (h x)
  | subscribe c cb =>
    have hne : ¬ o = owner c := fun e => hop c cb rfl e.symm
    simp only [step]
    split
    · unfold subscribe
      split
      · exact ⟨rfl, rfl⟩
      · simp [setList, hne]
    · exact ⟨rfl, rfl⟩
  | unsubscribe c cb =>
    have hne : ¬ o = owner c := fun e => hop2 c cb rfl e.symm
    simp only [step]
    split
    · unfold unsubscribe
      split
      · simp [setList, hne]
      · exact ⟨rfl, rfl⟩
    · exact ⟨rfl, rfl⟩
  | broadcast c acc beh =>
    simp only [step]
    split
    · refine ⟨?_, rfl⟩
      simp only [cleanup, setList]
      split
      · next e => rw [List.filter_filter, e]; simp
      · rfl
    · exact ⟨rfl, rfl⟩
  | count c =>
    refine ⟨?_, rfl⟩
    simp only [step, cleanup, setList]
    split
    · next e => rw [List.filter_filter, e]; simp
    · rfl

/-- C38, what holds: no operation on a class whose list is a different one (they have different owners) changes what a class delivers; for every callback kind and every `==`.
Missing: subclasses that do not redeclare the list (`C38_inherited_violation`). -/
theorem C38_isolated_partial (owner : Nat → Nat) (eqv : Nat → Nat → Bool) (b : Hub) (c d : Nat) (hne : owner c ≠ owner d) (op : Op)
    (hop : (∃ cb, op = .subscribe d cb) ∨ (∃ cb, op = .unsubscribe d cb) ∨ (∃ a beh, op = .broadcast d a beh) ∨ op = .count d)
    (beh : Cb → Behaviour) :
    (step owner eqv (step owner eqv b op).1 (.broadcast c true beh)).2 = (step owner eqv b (.broadcast c true beh)).2 := by
  have key := step_other owner eqv b op (owner c)
    (by rcases hop with ⟨_, rfl⟩ | ⟨_, rfl⟩ | ⟨_, _, rfl⟩ | rfl <;> intro c h <;> cases h)
    (by rcases hop with ⟨_, rfl⟩ | ⟨_, rfl⟩ | ⟨_, _, rfl⟩ | rfl <;> intro c' cb h <;> cases h; exact fun e => hne e.symm)
    (by rcases hop with ⟨_, rfl⟩ | ⟨_, rfl⟩ | ⟨_, _, rfl⟩ | rfl <;> intro c' cb h <;> cases h; exact fun e => hne e.symm)
  have h3 : (cleanup (step owner eqv b op).1 (owner c)).2 = (cleanup b (owner c)).2 := by
    simp only [cleanup]
    rw [alive_congr key.2]
    exact key.1
  have h4 : ∀ b : Hub, (step owner eqv b (.broadcast c true beh)).2 = .called (deliver beh (cleanup b (owner c)).2).1 (deliver beh (cleanup b (owner c)).2).2 :=
    fun b => rfl
  rw [h4, h4, h3]

example : id 1 ≠ id 2 := by decide

/-- C38 fails for subclasses `1` and `2` of a base class `0` that do not redeclare the list: a subscription on one receives the other's broadcasts. -/
theorem C38_inherited_violation :
    (run (fun _ => 0) byId {} [.subscribe 1 (.plain 7), .broadcast 2 true (fun _ => .returns)]).2 = [.unit, .called [.plain 7] true] := by decide

/-! ### C98: bound methods -/

/-- Subscribing the same bound method twice calls it twice, and unsubscribing it has no effect. -/
theorem C98_bound_method_violation :
    (run id byId {} [.subscribe 0 (.method 1 5), .subscribe 0 (.method 1 5), .unsubscribe 0 (.method 1 5),
      .broadcast 0 true (fun _ => .returns)]).2 =
      [.unit, .unit, .unit, .called [.method 1 5, .method 1 5] true] := by decide

/-- Unsubscribing a callable object removes the subscription of one of its bound methods, and leaves its own. -/
theorem C98_callable_object_violation :
    (run id byId {} [.subscribe 0 (.method 1 5), .subscribe 0 (.plain 1), .unsubscribe 0 (.plain 1),
      .broadcast 0 true (fun _ => .returns)]).2 =
      [.unit, .unit, .unit, .called [.plain 1] true] := by decide

/-- In every state `unsubscribe(obj.method)` changes nothing. -/
theorem C98_unsubscribe_violation (owner : Nat → Nat) (eqv : Nat → Nat → Bool) (b : Hub) (c obj fn : Nat) :
    (step owner eqv b (.unsubscribe c (.method obj fn))).1 = b := by
  have : (b.lists (owner c)).any (fun r => alive b r && isSame r (.method obj fn)) = false := by
    rw [List.any_eq_false]
    intro x _
    cases x <;> simp [isSame]
  simp only [step, unsubscribe, this]
  split <;> simp

theorem erase_filter_ne {α : Type} [DecidableEq α] (f : α → Bool) (a : α) (ha : f a = true) : ∀ l : List α, (l.erase a).filter f = (l.filter f).erase a
  | [] => rfl
  | x :: l => by
    by_cases hx : x = a
    · subst hx; simp [ha]
    · rw [List.erase_cons_tail (by simpa using hx)]
      cases hf : f x with
      | true => rw [List.filter_cons_of_pos hf, List.filter_cons_of_pos hf, List.erase_cons_tail (by simpa using hx), erase_filter_ne f a ha l]
      | false => rw [List.filter_cons_of_neg (by simp [hf]), List.filter_cons_of_neg (by simp [hf]), erase_filter_ne f a ha l]

/-- C98, what holds: `unsubscribe` of a function, also among bound methods, takes exactly its own (first) entry out of what the class delivers to, provided that the function is not itself the receiver of a
subscribed method. (For a callable object that is, see `C98_callable_object_violation`.) -/
theorem C98_function_partial (owner : Nat → Nat) (eqv : Nat → Nat → Bool) (hid : ∀ x y, eqv x y = true → x = y) (b : Hub) (c h : Nat)
    (ha : alive b (.plain h) = true) (hm : ∀ fn, Cb.method h fn ∉ b.lists (owner c)) (beh : Cb → Behaviour) (hb : ∀ cb, beh cb ≠ .aborts) :
    ∃ cs, (step owner eqv b (.broadcast c true beh)).2 = .called cs true ∧
      (step owner eqv (step owner eqv b (.unsubscribe c (.plain h))).1 (.broadcast c true beh)).2 = .called (cs.erase (.plain h)) true := by
  have hrem : ∀ l : List Cb, (∀ fn, Cb.method h fn ∉ l) → removeRef b eqv h l = l.erase (.plain h) := by
    intro l
    induction l with
    | nil => intro _; rfl
    | cons r l ih =>
      intro hl
      have hl' : ∀ fn, Cb.method h fn ∉ l := fun fn hm' => hl fn (List.mem_cons_of_mem _ hm')
      rw [removeRef]
      cases r with
      | plain x =>
        by_cases hx : x = h
        · subst hx; simp [refEq]
        · have hr : refEq b eqv (.plain x) h = false := by
            simp only [refEq, Bool.or_eq_false_iff, beq_eq_false_iff_ne, Bool.and_eq_false_iff]
            exact ⟨hx, .inr (by cases he : eqv x h with | false => rfl | true => exact absurd (hid _ _ he) hx)⟩
          rw [hr, List.erase_cons_tail (by simpa using hx), ih hl']; simp
      | method x fn =>
        have hx : x ≠ h := fun e => hl fn (by rw [e]; exact List.mem_cons_self)
        have hr : refEq b eqv (.method x fn) h = false := by
          simp only [refEq, Bool.and_eq_false_iff, Bool.or_eq_false_iff, beq_eq_false_iff_ne]
          exact .inr ⟨hx, by cases he : eqv x h with | false => rfl | true => exact absurd (hid _ _ he) hx⟩
        rw [hr, List.erase_cons_tail (by simp), ih hl']; simp
  refine ⟨(b.lists (owner c)).filter (alive b), ?_, ?_⟩
  · simp only [step, cleanup, if_true]
    rw [deliver_all (fun c _ => hb c)]
  · simp only [step, ha, if_true, unsubscribe]
    by_cases hin : (b.lists (owner c)).any (fun r => alive b r && isSame r (.plain h)) = true
    · rw [if_pos hin]
      simp only [cleanup]
      rw [deliver_all (fun c _ => hb c)]
      have hal : alive (setList b (owner c) (removeRef b eqv (Cb.plain h).holder (b.lists (owner c)))) = alive b := alive_congr rfl
      rw [hal]
      simp only [setList, if_true, Cb.holder]
      rw [hrem _ hm, erase_filter_ne _ _ ha]
    · rw [if_neg hin]
      simp only [cleanup]
      rw [deliver_all (fun c _ => hb c), List.erase_of_not_mem]
      intro hmem
      apply hin
      rw [List.any_eq_true]
      exact ⟨_, (List.mem_filter.1 hmem).1, by simp [ha, isSame]⟩

example : (run id byId {} [.subscribe 0 (.method 1 5), .subscribe 0 (.plain 2), .subscribe 0 (.method 3 5), .unsubscribe 0 (.plain 2),
      .broadcast 0 true (fun _ => .returns)]).2 = [.unit, .unit, .unit, .unit, .called [.method 1 5, .method 3 5] true] := by decide

/-- C98, what holds: a subscribed bound method is delivered to for as long as its receiver and function live (and exactly as often as it was subscribed): subscribing appends one delivery. -/
theorem C98_bound_method_partial (owner : Nat → Nat) (eqv : Nat → Nat → Bool) (b : Hub) (c obj fn : Nat) (ha : alive b (.method obj fn) = true)
    (beh : Cb → Behaviour) (hb : ∀ cb, beh cb ≠ .aborts) :
    ∃ cs, (step owner eqv b (.broadcast c true beh)).2 = .called cs true ∧
      (step owner eqv (step owner eqv b (.subscribe c (.method obj fn))).1 (.broadcast c true beh)).2 = .called (cs ++ [.method obj fn]) true := by
  have hs : (b.lists (owner c)).any (fun r => alive b r && isSame r (.method obj fn)) = false := by
    rw [List.any_eq_false]
    intro x _
    cases x <;> simp [isSame]
  refine ⟨(b.lists (owner c)).filter (alive b), ?_, ?_⟩
  · simp only [step, if_true, cleanup]
    rw [deliver_all (fun c _ => hb c)]
  · simp only [step, if_true, cleanup, ha, subscribe, hs, Bool.false_eq_true, if_false]
    rw [deliver_all (fun c _ => hb c)]
    have : alive (setList b (owner c) (b.lists (owner c) ++ [Cb.method obj fn])) = alive b := alive_congr rfl
    rw [this]
    simp [setList, List.filter_append, ha]

/-! ### C99: one instance per class -/

/-- A subclass that does not redeclare `_instance` gets the instance of its base class, if that was constructed first. -/
theorem C99_inherited_instance_violation :
    let mro : Nat → List Nat := fun c => if c = 0 then [0] else [c, 0]
    (constructs mro { own := fun c => if c = 0 then .none_ else .missing } [0, 1]).2 = [.inst 0 0, .inst 0 0] := by decide

/-- The own attribute of a class, once it is an instance, never changes, and is an instance of that class. -/
structure Good (s : Insts) : Prop where
  own : ∀ c d n, s.own c = .inst d n → d = c ∧ n < s.next
  inj : ∀ c c' n, s.own c = .inst c n → s.own c' = .inst c' n → c = c'

theorem construct_good {mro : Nat → List Nat} {s : Insts} (g : Good s) (c : Nat) : Good (construct mro s c).1 := by
  have key : Good { own := fun c' => if c' = c then .inst c s.next else s.own c', next := s.next + 1 } := by
    constructor
    · intro c' d n h
      simp only at h
      split at h
      · next e => cases h; exact ⟨e.symm, by simp⟩
      · obtain ⟨h1, h2⟩ := g.own c' d n h; exact ⟨h1, by simp; omega⟩
    · intro c1 c2 n h1 h2
      simp only at h1 h2
      split at h1 <;> split at h2
      · next e1 e2 => rw [e1, e2]
      · cases h1; exact absurd (g.own _ _ _ h2).2 (by omega)
      · cases h2; exact absurd (g.own _ _ _ h1).2 (by omega)
      · exact g.inj _ _ _ h1 h2
  unfold construct
  split
  · exact g
  · exact key

theorem construct_own {mro : Nat → List Nat} {s : Insts} (d c : Nat) (h : ∃ n, s.own c = .inst c n) :
    (construct mro s d).1.own c = s.own c ∨ (d = c ∧ s.own c ≠ lookup s.own (mro c)) := by
  obtain ⟨n, h⟩ := h
  unfold construct
  split
  · exact Or.inl rfl
  · next hl =>
    simp only
    by_cases e : c = d
    · subst e
      right
      refine ⟨rfl, ?_⟩
      intro e'
      rw [h] at e'
      exact hl _ _ e'.symm
    · left; rw [if_neg e]

/-- C99, what holds: a class that declares `_instance` itself (so the lookup stops at the class) always constructs an instance of itself, the same one from then on, whatever other classes are constructed in between.
Missing: classes that inherit the attribute (`C99_inherited_instance_violation`). -/
theorem C99_singleton_partial (mro : Nat → List Nat) (c : Nat) (hm : ∃ rest, mro c = c :: rest) (s : Insts) (g : Good s) (hd : s.own c ≠ .missing) (between : List Nat) :
    ∃ n, (construct mro s c).2 = .inst c n ∧ (construct mro (constructs mro (construct mro s c).1 between).1 c).2 = .inst c n := by
  obtain ⟨rest, hm⟩ := hm
  have hl : ∀ s : Insts, s.own c ≠ .missing → lookup s.own (mro c) = s.own c := by
    intro s h; rw [hm, lookup, if_neg h]
  have h1 : ∃ n, (construct mro s c).2 = .inst c n ∧ (construct mro s c).1.own c = .inst c n := by
    cases ho : s.own c with
    | missing => exact absurd ho hd
    | none_ => exact ⟨s.next, by simp [construct, hl s hd, ho], by simp [construct, hl s hd, ho]⟩
    | inst d n =>
      obtain ⟨rfl, _⟩ := g.own c d n ho
      exact ⟨n, by simp [construct, hl s hd, ho], by simp [construct, hl s hd, ho]⟩
  obtain ⟨n, h1, h2⟩ := h1
  refine ⟨n, h1, ?_⟩
  have h3 : ∀ (l : List Nat) (s : Insts), s.own c = .inst c n → (constructs mro s l).1.own c = .inst c n := by
    intro l
    induction l with
    | nil => intro s h; exact h
    | cons d l ih =>
      intro s h
      apply ih
      rcases construct_own (mro := mro) d c ⟨n, h⟩ with h4 | ⟨_, h4⟩
      · rw [h4, h]
      · exact absurd (hl s (by rw [h]; simp)).symm h4
  have h5 := h3 between _ h2
  generalize (constructs mro (construct mro s c).1 between).1 = s' at h5
  unfold construct
  rw [hl s' (by rw [h5]; simp), h5]

example : Good { own := fun c => if c = 0 ∨ c = 1 then .none_ else .missing } := by
  constructor
  · intro c d n h
    simp only at h
    split at h <;> cases h
  · intro c c' n h
    simp only at h
    split at h <;> cases h

end Verif.Broadcaster
