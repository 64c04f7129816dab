import Verif.Model.EventBus

/-!
# EventBus: C35, C36, C95–C97
-/

set_option linter.unusedSectionVars false
set_option linter.unusedSimpArgs false
set_option linter.unusedVariables false

namespace Verif.EventBus

/-! ### Specification: the list of live subscriptions of each topic, oldest first -/

/-- Abstract state: which objects are gone, the live subscriptions per topic, and the topics subscribed to since they were last cleared. -/
structure Spec where
  gone : Nat → Bool := fun _ => false
  live : String → List Nat := fun _ => []
  known : String → Bool := fun _ => false

/-- The next abstract state. -/
def Spec.next (s : Spec) : Op → Spec
  | .subscribe t h => if s.gone h then s else
    { s with live := fun t' => if t' = t then s.live t ++ [h] else s.live t', known := fun t' => t' == t || s.known t' }
  | .unsubscribe t h => if s.gone h then s else { s with live := fun t' => if t' = t then (s.live t).erase h else s.live t' }
  | .collect h => { s with gone := fun x => x == h || s.gone x, live := fun t => (s.live t).filter (· != h) }
  | .clear none => { s with live := fun _ => [], known := fun _ => false }
  | .clear (some t) => { s with live := fun t' => if t' = t then [] else s.live t', known := fun t' => t' != t && s.known t' }
  | _ => s

/-- Is this the right result of the operation in the abstract state? -/
def Spec.ok (s : Spec) : Op → Out → Prop
  | .unsubscribe t h, o => s.gone h = false → o = .bool (decide (h ∈ s.live t))
  | .emit beh t, o => (∀ h ∈ s.live t, beh h = .awaitable) → o = .ran (s.live t)
  | .handlerCount t, o => o = .count (s.live t).length
  | .topics, o => ∃ ts, o = .topics ts ∧ ts.Nodup ∧ ∀ t, t ∈ ts ↔ s.known t = true
  | _, _ => True

/-- Every result in the history is the right one. -/
def Spec.allOk : Spec → List Op → List Out → Prop
  | _, [], outs => outs = []
  | s, op :: ops, outs => ∃ o rest, outs = o :: rest ∧ s.ok op o ∧ (s.next op).allOk ops rest

/-! ### Refinement -/

structure Rel (b : Bus) (s : Spec) : Prop where
  wf : b.subs.WF
  gone : ∀ h, alive b h = !s.gone h
  live : ∀ t, (refs b t).filter (alive b) = s.live t
  known : ∀ t, t ∈ b.subs.keys ↔ s.known t = true

theorem alive_congr {b c : Bus} (h : b.dead = c.dead) : alive b = alive c := by
  funext x; simp [alive, h]

theorem refs_set (b : Bus) (t t' : String) (l : List Nat) :
    refs { b with subs := b.subs.set t l } t' = if t' = t then l else refs b t' := by
  simp only [refs, Dict.get?_set]
  by_cases h : t = t'
  · subst h; simp
  · have h' : t' ≠ t := fun e => h e.symm
    simp [h, h']

theorem refs_of_not_has {b : Bus} {t : String} (h : b.subs.has t = false) : refs b t = [] := by
  rw [Dict.has_eq_false_iff, ← Dict.get?_eq_none_iff] at h
  simp [refs, h]

theorem callAll_ok {beh : Nat → Behaviour} {hs : List Nat} (h : ∀ x ∈ hs, beh x = .awaitable) : callAll beh hs = some hs := by
  induction hs with
  | nil => rfl
  | cons a hs ih =>
    simp only [callAll, h a (by simp), ih (fun x hx => h x (by simp [hx])), Option.map_some]

theorem mem_keys_set_self {d : Dict String (List Nat)} {t : String} (hm : t ∈ d.keys) (v : List Nat) (t' : String) :
    t' ∈ (d.set t v).keys ↔ t' ∈ d.keys := by
  rw [Dict.mem_keys_set]
  constructor
  · rintro (rfl | h)
    · exact hm
    · exact h
  · exact Or.inr

theorem has_of_not {b : Bus} {t : String} (h : ¬ b.subs.has t = false) : t ∈ b.subs.keys := by
  rw [← Dict.has_iff]
  cases hb : b.subs.has t with
  | true => rfl
  | false => exact absurd hb h

theorem Rel.cleanup {b : Bus} {s : Spec} (h : Rel b s) (t : String) (hm : ¬ b.subs.has t = false) :
    Rel (cleanup b t).1 s ∧ (EventBus.cleanup b t).2 = s.live t := by
  refine ⟨⟨Dict.set_wf h.wf _ _, h.gone, ?_, fun t' => (mem_keys_set_self (has_of_not hm) _ t').trans (h.known t')⟩, h.live t⟩
  intro t'
  have : alive (EventBus.cleanup b t).1 = alive b := alive_congr rfl
  rw [this]
  unfold EventBus.cleanup
  rw [refs_set]
  split
  · next e => subst e; rw [List.filter_filter]; simp; exact h.live _
  · exact h.live t'

theorem removeRef_id {b : Bus} (eqv : Nat → Nat → Bool) (h : Nat) (hid : ∀ x y, eqv x y = true → x = y) (l : List Nat) :
    removeRef b eqv h l = l.erase h := by
  induction l with
  | nil => rfl
  | cons r rs ih =>
    simp only [removeRef, List.erase_cons]
    by_cases e : r = h
    · simp [e]
    · have : ¬ (r = h ∨ (alive b r = true ∧ alive b h = true ∧ eqv r h = true)) := by
        rintro (h1 | ⟨_, _, h1⟩)
        · exact e h1
        · exact e (hid _ _ h1)
      rw [if_neg this, ih]
      simp [e]

theorem filter_erase {p : Nat → Bool} {h : Nat} (hp : p h = true) (l : List Nat) : (l.erase h).filter p = (l.filter p).erase h := by
  induction l with
  | nil => rfl
  | cons r rs ih =>
    by_cases e : r = h
    · subst e; simp [hp]
    · rw [List.erase_cons_tail (by simp [e])]
      by_cases hr : p r = true
      · rw [List.filter_cons_of_pos hr, List.filter_cons_of_pos hr, List.erase_cons_tail (by simp [e]), ih]
      · rw [List.filter_cons_of_neg hr, List.filter_cons_of_neg hr, ih]

theorem Rel.step {b : Bus} {s : Spec} (h : Rel b s) (eqv : Nat → Nat → Bool) (hid : ∀ x y, eqv x y = true → x = y) (op : Op) :
    Rel (step eqv b op).1 (s.next op) ∧ s.ok op (step eqv b op).2 := by
  cases op with
  | subscribe t x =>
    refine ⟨?_, trivial⟩
    have hg := h.gone x
    simp only [EventBus.step, Spec.next]
    cases hx : s.gone x with
    | true => rw [hx] at hg; simp [hg]; exact h
    | false =>
      rw [hx] at hg
      simp only [hg, Bool.not_false, if_true]
      refine ⟨Dict.set_wf h.wf _ _, h.gone, ?_, ?_⟩
      rotate_left
      · intro t'
        simp only [Bool.false_eq_true, if_false, Bool.or_eq_true, beq_iff_eq]
        rw [← h.known t', subscribe, Dict.mem_keys_set]
      intro t'
      have : alive (subscribe b t x) = alive b := alive_congr rfl
      simp only [this]
      unfold subscribe
      rw [refs_set]
      simp only [Bool.false_eq_true, if_false]
      split
      · next e => subst e; rw [List.filter_append, h.live]; simp [hg]
      · exact h.live t'
  | unsubscribe t x =>
    have hg := h.gone x
    simp only [EventBus.step, Spec.next, Spec.ok]
    cases hx : s.gone x with
    | true => rw [hx] at hg; simp [hg]; exact h
    | false =>
      rw [hx] at hg
      have hg' : alive b x = true := hg
      simp only [hg', if_true, forall_const, Bool.false_eq_true, if_false]
      have hmem : (refs b t).any (fun r => alive b r && r == x) = decide (x ∈ s.live t) := by
        rw [← h.live t, Bool.eq_iff_iff]
        simp only [List.any_eq_true, Bool.and_eq_true, beq_iff_eq, decide_eq_true_eq, List.mem_filter]
        constructor
        · rintro ⟨r, h1, h2, rfl⟩; exact ⟨h1, h2⟩
        · rintro ⟨h1, h2⟩; exact ⟨x, h1, h2, rfl⟩
      unfold unsubscribe
      have same : x ∉ s.live t → Rel b { s with live := fun t' => if t' = t then (s.live t).erase x else s.live t' } := by
        intro hn
        refine ⟨h.wf, h.gone, ?_, h.known⟩
        intro t'
        simp only
        split
        · next e => subst e; rw [List.erase_of_not_mem hn]; exact h.live _
        · exact h.live t'
      by_cases hh : b.subs.has t = false
      · rw [if_pos hh]
        have hn : x ∉ s.live t := by
          rw [← h.live t, refs_of_not_has hh]; simp
        exact ⟨same hn, by simp [hn]⟩
      · rw [if_neg hh, hmem]
        by_cases hm : x ∈ s.live t
        · simp only [hm, decide_true, if_true]
          refine ⟨⟨Dict.set_wf h.wf _ _, h.gone, ?_, fun t' => (mem_keys_set_self (has_of_not hh) _ t').trans (h.known t')⟩, by trivial⟩
          intro t'
          rw [removeRef_id eqv x hid, refs_set]
          have : alive { b with subs := b.subs.set t ((refs b t).erase x) } = alive b := alive_congr rfl
          rw [this]
          simp only
          split
          · next e => rw [filter_erase hg', h.live]
          · exact h.live t'
        · simp only [hm, decide_false, Bool.false_eq_true, if_false]
          exact ⟨same hm, by trivial⟩
  | collect x =>
    refine ⟨⟨h.wf, ?_, ?_, h.known⟩, trivial⟩
    · intro y
      have := h.gone y
      simp only [EventBus.step, Spec.next, alive, List.contains_cons] at this ⊢
      rw [Bool.not_or, this, Bool.not_or]
    · intro t
      simp only [EventBus.step, Spec.next]
      rw [← h.live t, List.filter_filter]
      apply List.filter_congr
      intro y _
      simp only [alive, List.contains_cons, Bool.not_or]
      rfl
  | emit beh t =>
    simp only [EventBus.step, Spec.next, Spec.ok, emit]
    split
    · next hh =>
      have : s.live t = [] := by rw [← h.live t, refs_of_not_has hh]; rfl
      exact ⟨h, fun _ => by rw [this]⟩
    · next hh =>
      obtain ⟨h1, h2⟩ := h.cleanup t hh
      cases hc : callAll beh (EventBus.cleanup b t).2 with
      | some hs =>
        refine ⟨h1, fun hb => ?_⟩
        rw [h2, callAll_ok hb] at hc
        cases hc; rfl
      | none =>
        refine ⟨h1, fun hb => ?_⟩
        rw [h2, callAll_ok hb] at hc
        cases hc
  | clear t =>
    refine ⟨?_, by cases t <;> trivial⟩
    cases t with
    | none => exact ⟨List.nodup_nil, h.gone, fun _ => rfl, fun _ => by simp [EventBus.step, EventBus.clear, Spec.next, Dict.keys]⟩
    | some t =>
      refine ⟨Dict.del_wf h.wf _, h.gone, ?_, ?_⟩
      rotate_left
      · intro t'
        simp only [EventBus.step, EventBus.clear, Spec.next, Bool.and_eq_true, bne_iff_ne, ne_eq]
        rw [Dict.mem_keys_del h.wf, h.known]
      intro t'
      simp only [EventBus.step, EventBus.clear, Spec.next, refs]
      have : alive { b with subs := b.subs.del t } = alive b := alive_congr rfl
      rw [this, Dict.get?_del h.wf]
      have hl := h.live t'
      unfold refs at hl
      by_cases e : t = t'
      · subst e; simp
      · have e' : t' ≠ t := fun h => e h.symm
        simp [e, e']; exact hl
  | handlerCount t =>
    simp only [EventBus.step, Spec.next, Spec.ok, handlerCount]
    split
    · next hh =>
      have : s.live t = [] := by rw [← h.live t, refs_of_not_has hh]; rfl
      exact ⟨h, by rw [this]; rfl⟩
    · next hh =>
      obtain ⟨h1, h2⟩ := h.cleanup t hh
      exact ⟨h1, by rw [h2]⟩
  | topics => exact ⟨h, _, rfl, h.wf, h.known⟩

theorem Rel.run {eqv : Nat → Nat → Bool} (hid : ∀ x y, eqv x y = true → x = y) (ops : List Op) {b : Bus} {s : Spec} (h : Rel b s) :
    s.allOk ops (run eqv b ops).2 := by
  induction ops generalizing b s with
  | nil => rfl
  | cons op ops ih => exact ⟨_, _, rfl, (h.step eqv hid op).2, ih (h.step eqv hid op).1⟩

theorem rel_init : Rel {} {} := ⟨List.nodup_nil, fun _ => rfl, fun _ => rfl, fun _ => by simp [Dict.keys]⟩

/-- C35, C36.  In every history over handlers that compare by identity: each `emit` whose handlers' calls return awaitables runs exactly the live subscriptions of that
topic, once per subscription, in order of subscription; each `unsubscribe` removes the earliest live subscription of that handler and tells whether there was one; `handler_count` is the number of live
subscriptions; `topics` lists, without repetition, the topics subscribed to since they were last cleared. -/
theorem C35_history {eqv : Nat → Nat → Bool} (hid : ∀ x y, eqv x y = true → x = y) (ops : List Op) :
    ({} : Spec).allOk ops (run eqv {} ops).2 := rel_init.run hid ops

/-- The abstract state after a history. -/
def Spec.after : Spec → List Op → Spec
  | s, [] => s
  | s, op :: ops => (s.next op).after ops

theorem Rel.after {eqv : Nat → Nat → Bool} (hid : ∀ x y, eqv x y = true → x = y) (ops : List Op) {b : Bus} {s : Spec} (h : Rel b s) :
    Rel (EventBus.run eqv b ops).1 (s.after ops) := by
  induction ops generalizing b s with
  | nil => exact h
  | cons op ops ih => exact ih (h.step eqv hid op).1

/-- C35 for a single emission after any history. -/
theorem C35_delivery {eqv : Nat → Nat → Bool} (hid : ∀ x y, eqv x y = true → x = y) (ops : List Op) (t : String) (beh : Nat → Behaviour)
    (hb : ∀ h ∈ (({} : Spec).after ops).live t, beh h = .awaitable) :
    (emit (run eqv {} ops).1 beh t).2 = .ran ((({} : Spec).after ops).live t) :=
  ((rel_init.after hid ops).step eqv hid (.emit beh t)).2 hb

/-- C36 for a single call after any history: exactly the first live subscription of `h` to `t` disappears, all other topics are unaffected, and the result tells
whether there was one. -/
theorem C36_unsubscribe {eqv : Nat → Nat → Bool} (hid : ∀ x y, eqv x y = true → x = y) (ops : List Op) (t : String) (h : Nat)
    (ha : (({} : Spec).after ops).gone h = false) :
    let b := (run eqv {} ops).1
    let r := unsubscribe b eqv t h
    r.2 = decide (h ∈ (({} : Spec).after ops).live t) ∧
      ∀ t', (refs r.1 t').filter (alive r.1) =
        if t' = t then ((({} : Spec).after ops).live t).erase h else (({} : Spec).after ops).live t' := by
  intro b r
  have hr : Rel b (({} : Spec).after ops) := rel_init.after hid ops
  have hal : alive b h = true := by rw [hr.gone, ha]; rfl
  obtain ⟨h1, h2⟩ := hr.step eqv hid (.unsubscribe t h)
  have h3 := h2 ha
  simp only [EventBus.step, hal, if_true] at h1 h3
  refine ⟨Out.bool.inj h3, ?_⟩
  intro t'
  have := h1.live t'
  simp only [Spec.next, ha] at this
  exact this

/-- `handler_count` after any history. -/
theorem C36_count {eqv : Nat → Nat → Bool} (hid : ∀ x y, eqv x y = true → x = y) (ops : List Op) (t : String) :
    (handlerCount (run eqv {} ops).1 t).2 = ((({} : Spec).after ops).live t).length :=
  Out.count.inj ((rel_init.after hid ops).step eqv hid (.handlerCount t)).2

/-- `topics` after any history: no repetitions, exactly the topics subscribed to since they were last cleared. -/
theorem C36_topics {eqv : Nat → Nat → Bool} (hid : ∀ x y, eqv x y = true → x = y) (ops : List Op) :
    (run eqv {} ops).1.subs.keys.Nodup ∧ ∀ t, t ∈ (run eqv {} ops).1.subs.keys ↔ (({} : Spec).after ops).known t = true :=
  ⟨(rel_init.after hid ops).wf, (rel_init.after hid ops).known⟩

def byId (x y : Nat) : Bool := x == y

/-- Non-vacuity: duplicates, a collected handler, another topic. -/
example : (run byId {} [.subscribe "a" 1, .subscribe "a" 2, .subscribe "a" 1, .subscribe "b" 3, .collect 2, .unsubscribe "a" 1,
    .emit (fun _ => .awaitable) "a", .handlerCount "a", .unsubscribe "a" 7]).2 =
    [.unit, .unit, .unit, .unit, .unit, .bool true, .ran [1], .count 1, .bool false] := by decide

/-! ### C95: handlers with their own `==` -/

/-- Two handlers that are `==` but different objects: unsubscribing one removes the other's subscription. -/
theorem C95_equal_handlers_violation :
    let eqv : Nat → Nat → Bool := fun x y => x % 10 == y % 10
    (run eqv {} [.subscribe "a" 1, .subscribe "a" 11, .unsubscribe "a" 11, .emit (fun _ => .awaitable) "a"]).2 =
      [.unit, .unit, .bool true, .ran [11]] := by decide

/-- Removing exactly one subscription at the place of `h` or of something `==` to it. -/
theorem removeRef_one {b : Bus} (eqv : Nat → Nat → Bool) (h : Nat) (l : List Nat) (hm : h ∈ l) :
    ∃ pre r post, l = pre ++ r :: post ∧ removeRef b eqv h l = pre ++ post ∧ (r = h ∨ (alive b r = true ∧ eqv r h = true)) := by
  induction l with
  | nil => cases hm
  | cons r rs ih =>
    simp only [removeRef]
    split
    · next hc =>
      refine ⟨[], r, rs, rfl, rfl, ?_⟩
      rcases hc with h1 | ⟨h0, _, h1⟩
      · exact Or.inl h1
      · exact Or.inr ⟨h0, h1⟩
    · next hc =>
      have hne : r ≠ h := fun e => hc (Or.inl e)
      rw [List.mem_cons] at hm
      rcases hm with hm | hm
      · exact absurd hm.symm hne
      · obtain ⟨pre, r', post, h2, h3, h4⟩ := ih hm
        exact ⟨r :: pre, r', post, by rw [h2]; rfl, by rw [h3]; rfl, h4⟩

/-- C95, what does hold for every `==`: whenever `h` is a live subscriber, `unsubscribe` answers `True` and exactly one subscription of that topic goes away, and it is one of a handler that is `h` or
equal to `h`; other topics keep theirs.  Missing: that it is `h`'s own (`C95_equal_handlers_violation`). -/
theorem C95_equal_handlers_partial (eqv : Nat → Nat → Bool) (b : Bus) (t : String) (h : Nat) (ha : alive b h = true) (hm : h ∈ refs b t) :
    (unsubscribe b eqv t h).2 = true ∧
      (∃ pre r post, refs b t = pre ++ r :: post ∧ refs (unsubscribe b eqv t h).1 t = pre ++ post ∧
        (r = h ∨ (alive b r = true ∧ eqv r h = true))) ∧
      ∀ t', t' ≠ t → refs (unsubscribe b eqv t h).1 t' = refs b t' := by
  have hh : ¬ b.subs.has t = false := by
    intro e
    rw [refs_of_not_has e] at hm; cases hm
  have ha' : (refs b t).any (fun r => alive b r && r == h) = true := by
    rw [List.any_eq_true]; exact ⟨h, hm, by simp [ha]⟩
  unfold unsubscribe
  rw [if_neg hh, if_pos ha']
  refine ⟨rfl, ?_, ?_⟩
  · rw [refs_set, if_pos rfl]
    exact removeRef_one eqv h _ hm
  · intro t' hne
    rw [refs_set, if_neg hne]

example : alive (run byId {} [.subscribe "a" 1, .subscribe "a" 11]).1 11 = true ∧ 11 ∈ refs (run byId {} [.subscribe "a" 1, .subscribe "a" 11]).1 "a" := by
  decide

/-! ### C96: bound methods -/

/-- `bus.subscribe(t, obj.method)` creates a fresh bound-method object that nothing but the weak reference mentions once `subscribe` returns, so it is collected at once. -/
def subscribeBound (eqv : Nat → Nat → Bool) (b : Bus) (t : String) (tmp : Nat) : Bus :=
  (step eqv (step eqv b (.subscribe t tmp)).1 (.collect tmp)).1

/-- C96 fails in every state: after subscribing `obj.method` the live subscriptions are what they were before, so the method is not run by the next `emit`. -/
theorem C96_bound_method_violation {eqv : Nat → Nat → Bool} (hid : ∀ x y, eqv x y = true → x = y) (ops : List Op) (t : String) (tmp : Nat)
    (fresh : ∀ t', tmp ∉ (({} : Spec).after ops).live t') (beh : Nat → Behaviour)
    (hb : ∀ h ∈ (({} : Spec).after ops).live t, beh h = .awaitable) :
    (emit (subscribeBound eqv (run eqv {} ops).1 t tmp) beh t).2 = (emit (run eqv {} ops).1 beh t).2 := by
  have h0 := rel_init.after hid ops
  have h1 := ((h0.step eqv hid (.subscribe t tmp)).1.step eqv hid (.collect tmp)).1
  have hl : ((((({} : Spec).after ops).next (.subscribe t tmp)).next (.collect tmp)).live t) = (({} : Spec).after ops).live t := by
    have hf : ((({} : Spec).after ops).live t).filter (· != tmp) = (({} : Spec).after ops).live t := by
      rw [List.filter_eq_self]
      intro a ha
      have : a ≠ tmp := fun e => fresh t (e ▸ ha)
      simpa using this
    simp only [Spec.next]
    cases hg : (({} : Spec).after ops).gone tmp with
    | true => simp only [if_true]; exact hf
    | false => simp only [Bool.false_eq_true, if_false, if_true, List.filter_append, hf]; simp
  rw [C35_delivery hid ops t beh hb]
  have := (h1.step eqv hid (.emit beh t)).2
  simp only [Spec.ok, hl] at this
  exact this hb

/-- C96, the part that holds: a bound method object that the caller keeps alive is delivered to. -/
theorem C96_bound_method_partial {eqv : Nat → Nat → Bool} (hid : ∀ x y, eqv x y = true → x = y) (ops : List Op) (t : String) (m : Nat)
    (ha : (({} : Spec).after ops).gone m = false) (beh : Nat → Behaviour) (hm : beh m = .awaitable)
    (hb : ∀ h ∈ (({} : Spec).after ops).live t, beh h = .awaitable) :
    (emit (step eqv (run eqv {} ops).1 (.subscribe t m)).1 beh t).2 = .ran ((({} : Spec).after ops).live t ++ [m]) := by
  have h1 := ((rel_init.after hid ops).step eqv hid (.subscribe t m)).1
  have := (h1.step eqv hid (.emit beh t)).2
  simp only [Spec.ok, Spec.next, ha, Bool.false_eq_true, if_false, if_true] at this
  apply this
  intro h hh
  rw [List.mem_append] at hh
  rcases hh with hh | hh
  · exact hb h hh
  · simp at hh; rw [hh]; exact hm

example : (emit (subscribeBound byId {} "a" 5) (fun _ => .awaitable) "a").2 = .ran [] := by decide

/-! ### C97: a handler whose call itself raises -/

theorem callAll_raises {beh : Nat → Behaviour} {hs : List Nat} {h : Nat} (hm : h ∈ hs) (hr : beh h = .raises) : callAll beh hs = none := by
  induction hs with
  | nil => cases hm
  | cons a hs ih =>
    rw [List.mem_cons] at hm
    simp only [callAll]
    rcases hm with rfl | hm
    · rw [hr]
    · cases beh a <;> simp [ih hm]

/-- C97 fails in every state in which one live handler's call raises: `emit` raises and no handler is run. -/
theorem C97_call_raises_violation {eqv : Nat → Nat → Bool} (hid : ∀ x y, eqv x y = true → x = y) (ops : List Op) (t : String) (beh : Nat → Behaviour)
    (h : Nat) (hm : h ∈ (({} : Spec).after ops).live t) (hr : beh h = .raises) :
    (emit (run eqv {} ops).1 beh t).2 = .raised := by
  have h0 := rel_init.after hid ops
  have hh : ¬ (run eqv {} ops).1.subs.has t = false := by
    intro e
    have := h0.live t
    rw [refs_of_not_has e] at this
    rw [← this] at hm; cases hm
  unfold emit
  rw [if_neg hh, (h0.cleanup t hh).2, callAll_raises hm hr]

/-- C97, what holds: `emit` either runs all live handlers once, or raises without running any. -/
theorem C97_all_or_none_partial {eqv : Nat → Nat → Bool} (hid : ∀ x y, eqv x y = true → x = y) (ops : List Op) (t : String) (beh : Nat → Behaviour) :
    (emit (run eqv {} ops).1 beh t).2 = .ran ((({} : Spec).after ops).live t) ∨ (emit (run eqv {} ops).1 beh t).2 = .raised := by
  by_cases hb : ∀ h ∈ (({} : Spec).after ops).live t, beh h = .awaitable
  · exact Or.inl (C35_delivery hid ops t beh hb)
  · right
    have : ∃ h, h ∈ (({} : Spec).after ops).live t ∧ beh h = .raises := by
      apply Classical.byContradiction
      intro hn
      apply hb
      intro h hm
      cases hbh : beh h with
      | awaitable => rfl
      | raises => exact absurd ⟨h, hm, hbh⟩ hn
    obtain ⟨h, hm, hr⟩ := this
    exact C97_call_raises_violation hid ops t beh h hm hr

example : (run byId {} [.subscribe "a" 1, .subscribe "a" 2, .emit (fun h => if h = 2 then .raises else .awaitable) "a"]).2 =
    [.unit, .unit, .raised] := by decide

end Verif.EventBus
