import Verif.Model.BroadcastConc

/-! # C286, C287: broadcasts that overlap with everything else -/

set_option linter.unusedVariables false
set_option linter.unusedSimpArgs false

namespace Verif.BroadcastConc

/-- The callbacks that call number `t` of `broadcast` has called, in order. -/
def callsOf (t : Nat) (l : List Ev) : List Nat := l.filterMap (fun e => match e with | .called t' h => if t' = t then some h else none | _ => none)

/-- The last thing said about `h` in the history is that it subscribes. -/
def Subscribed (as : List Act) (h : Nat) : Prop := ∃ pre post, as = pre ++ .subscribe h :: post ∧ .unsubscribe h ∉ post

theorem run_append (s : St) (as bs : List Act) : run s (as ++ bs) = run (run s as) bs := List.foldl_append

theorem run_snoc (s : St) (as : List Act) (a : Act) : run s (as ++ [a]) = step (run s as) a := by rw [run_append]; rfl

theorem callsOf_append (t : Nat) (l m : List Ev) : callsOf t (l ++ m) = callsOf t l ++ callsOf t m := List.filterMap_append

/-! ### Invariants -/

/-- The list has no callback twice; every call in the log belongs to a call of `broadcast` that exists, and what a broadcast has called are its callbacks up to `next`;
a broadcast that has returned has called all. -/
structure Inv (s : St) : Prop where
  nodup : s.subs.Nodup
  calls : ∀ (t : Nat) k, s.tasks[t]? = some k → callsOf t s.log = k.callbacks.take k.next
  fresh : ∀ t, s.tasks.length ≤ t → callsOf t s.log = [] ∧ .returned t ∉ s.log
  done : ∀ (t : Nat) k, s.tasks[t]? = some k → .returned t ∈ s.log → callsOf t s.log = k.callbacks ∧ k.running = false

theorem callsOf_called_self (t h : Nat) : callsOf t [.called t h] = [h] := by simp [callsOf]
theorem callsOf_called_ne {t t' : Nat} (h : Nat) (e : t' ≠ t) : callsOf t [.called t' h] = [] := by simp [callsOf, e]
theorem callsOf_returned (t t' : Nat) : callsOf t [.returned t'] = [] := by simp [callsOf]
theorem callsOf_aborted (t t' : Nat) : callsOf t [.aborted t'] = [] := by simp [callsOf]
theorem callsOf_refused (t : Nat) : callsOf t [.refused] = [] := by simp [callsOf]

theorem inv_advance {s : St} (h : Inv s) {t : Nat} {k : Task} (hk : s.tasks[t]? = some k) (hr : k.running = true) : Inv (advance t k s) := by
  have hlt : t < s.tasks.length := (List.getElem?_eq_some_iff.1 hk).1
  simp only [advance]
  cases hn : k.callbacks[k.next]? with
  | none =>
    simp only
    have hlen : k.callbacks.length ≤ k.next := List.getElem?_eq_none_iff.1 hn
    refine ⟨h.nodup, fun t' k' hk' => ?_, fun t' ht' => ?_, fun t' k' hk' hret => ?_⟩
    · rw [callsOf_append, callsOf_returned, List.append_nil]
      rw [List.getElem?_set] at hk'
      by_cases e : t = t'
      · rw [if_pos e, if_pos (e ▸ hlt)] at hk'
        simp only [Option.some.injEq] at hk'
        subst hk'
        rw [← e]; exact h.calls t k hk
      · rw [if_neg e] at hk'; exact h.calls t' k' hk'
    · rw [List.length_set] at ht'
      rw [callsOf_append, callsOf_returned, List.append_nil]
      refine ⟨(h.fresh t' ht').1, fun hm => ?_⟩
      rcases List.mem_append.1 hm with hm | hm
      · exact (h.fresh t' ht').2 hm
      · simp only [List.mem_singleton, Ev.returned.injEq] at hm; omega
    · rw [callsOf_append, callsOf_returned, List.append_nil]
      rw [List.getElem?_set] at hk'
      by_cases e : t = t'
      · rw [if_pos e, if_pos (e ▸ hlt)] at hk'
        simp only [Option.some.injEq] at hk'
        subst hk'
        rw [← e, h.calls t k hk]
        exact ⟨List.take_of_length_le hlen, rfl⟩
      · rw [if_neg e] at hk'
        refine h.done t' k' hk' ?_
        rcases List.mem_append.1 hret with hm | hm
        · exact hm
        · simp only [List.mem_singleton, Ev.returned.injEq] at hm; omega
  | some c =>
    simp only
    have hnr : .returned t ∉ s.log := fun hm => by
      have := (h.done t k hk hm).2
      rw [hr] at this; cases this
    refine ⟨h.nodup, fun t' k' hk' => ?_, fun t' ht' => ?_, fun t' k' hk' hret => ?_⟩
    · rw [callsOf_append]
      rw [List.getElem?_set] at hk'
      by_cases e : t = t'
      · rw [if_pos e, if_pos (e ▸ hlt)] at hk'
        simp only [Option.some.injEq] at hk'
        subst hk'
        rw [← e, callsOf_called_self, h.calls t k hk, List.take_add_one, hn]
        rfl
      · rw [if_neg e] at hk'
        rw [callsOf_called_ne c e, List.append_nil]
        exact h.calls t' k' hk'
    · rw [List.length_set] at ht'
      rw [callsOf_append, callsOf_called_ne c (by omega), List.append_nil]
      refine ⟨(h.fresh t' ht').1, fun hm => ?_⟩
      rcases List.mem_append.1 hm with hm | hm
      · exact (h.fresh t' ht').2 hm
      · simp at hm
    · have hret' : .returned t' ∈ s.log := by
        rcases List.mem_append.1 hret with hm | hm
        · exact hm
        · simp at hm
      have e : t ≠ t' := fun e => hnr (e ▸ hret')
      rw [List.getElem?_set, if_neg e] at hk'
      rw [callsOf_append, callsOf_called_ne c e, List.append_nil]
      exact h.done t' k' hk' hret'

theorem inv_step {s : St} (h : Inv s) (a : Act) : Inv (step s a) := by
  cases a with
  | subscribe c =>
    simp only [step, subscribe]
    split
    · rename_i hc
      simp only [Bool.and_eq_true, Bool.not_eq_true', decide_eq_false_iff_not] at hc
      refine ⟨?_, h.calls, h.fresh, h.done⟩
      refine List.nodup_append.2 ⟨h.nodup, by simp, ?_⟩
      intro a ha b hb e
      simp only [List.mem_singleton] at hb
      exact hc.2 (hb ▸ e ▸ ha)
    · exact h
  | unsubscribe c =>
    simp only [step, unsubscribe]
    split
    · exact ⟨h.nodup.erase c, h.calls, h.fresh, h.done⟩
    · exact h
  | drop c => exact ⟨h.nodup, h.calls, h.fresh, h.done⟩
  | broadcast ok =>
    simp only [step, start]
    split
    · refine ⟨h.nodup.sublist List.filter_sublist, fun t k hk => ?_, fun t ht => ?_, fun t k hk hret => ?_⟩
      · rw [List.getElem?_append] at hk
        split at hk
        · exact h.calls t k hk
        · rename_i hlt
          have := h.fresh t (by omega)
          cases hj : t - s.tasks.length with
          | zero =>
            rw [hj] at hk
            simp only [List.getElem?_cons_zero, Option.some.injEq] at hk
            subst hk
            rw [List.take_zero]; exact this.1
          | succ j => rw [hj] at hk; simp at hk
      · rw [List.length_append] at ht
        exact h.fresh t (by omega)
      · rw [List.getElem?_append] at hk
        split at hk
        · exact h.done t k hk hret
        · exact absurd hret (h.fresh t (by omega)).2
    · refine ⟨h.nodup, fun t k hk => ?_, fun t ht => ?_, fun t k hk hret => ?_⟩
      · rw [callsOf_append, callsOf_refused, List.append_nil]; exact h.calls t k hk
      · rw [callsOf_append, callsOf_refused, List.append_nil]
        exact ⟨(h.fresh t ht).1, by simpa using (h.fresh t ht).2⟩
      · rw [callsOf_append, callsOf_refused, List.append_nil]
        exact h.done t k hk (by simpa using hret)
  | turn t =>
    simp only [step, turn]
    split
    · exact h
    · split
      · rename_i k hk hr; exact inv_advance h hk hr
      · exact h
  | abort t =>
    simp only [step, abort]
    split
    · exact h
    · split
      · rename_i k hk hr
        have hlt : t < s.tasks.length := (List.getElem?_eq_some_iff.1 hk).1
        refine ⟨h.nodup, fun t' k' hk' => ?_, fun t' ht' => ?_, fun t' k' hk' hret => ?_⟩
        · rw [callsOf_append, callsOf_aborted, List.append_nil]
          rw [List.getElem?_set] at hk'
          by_cases e : t = t'
          · rw [if_pos e, if_pos (e ▸ hlt)] at hk'
            simp only [Option.some.injEq] at hk'
            subst hk'
            rw [← e]; exact h.calls t k hk
          · rw [if_neg e] at hk'; exact h.calls t' k' hk'
        · rw [List.length_set] at ht'
          rw [callsOf_append, callsOf_aborted, List.append_nil]
          exact ⟨(h.fresh t' ht').1, by simpa using (h.fresh t' ht').2⟩
        · rw [callsOf_append, callsOf_aborted, List.append_nil]
          have hret' : .returned t' ∈ s.log := by simpa using hret
          rw [List.getElem?_set] at hk'
          by_cases e : t = t'
          · rw [if_pos e, if_pos (e ▸ hlt)] at hk'
            simp only [Option.some.injEq] at hk'
            subst hk'
            rw [← e]; exact ⟨(h.done t k hk (e ▸ hret')).1, rfl⟩
          · rw [if_neg e] at hk'; exact h.done t' k' hk' hret'
      · exact h

theorem inv_run : ∀ (as : List Act) {s : St}, Inv s → Inv (run s as)
  | [], _, h => h
  | a :: as, _, h => inv_run as (inv_step h a)

theorem inv_init : Inv {} := ⟨List.nodup_nil, fun t k h => by simp at h, fun t _ => ⟨rfl, by simp⟩, fun t k h => by simp at h⟩

/-- What a step leaves of a call of `broadcast`: its callbacks, what it has called; a call that has ended does nothing more. -/
structure Later (k k' : Task) : Prop where
  callbacks : k'.callbacks = k.callbacks
  next : k.next ≤ k'.next
  running : k'.running = true → k.running = true
  ended : k.running = false → k'.next = k.next

theorem Later.refl (k : Task) : Later k k := ⟨rfl, Nat.le_refl _, id, fun _ => rfl⟩

theorem Later.trans {k k' k'' : Task} (h : Later k k') (g : Later k' k'') : Later k k'' := by
  refine ⟨g.callbacks.trans h.callbacks, Nat.le_trans h.next g.next, fun x => h.running (g.running x), fun x => ?_⟩
  have h1 : k'.running = false := by
    cases hr : k'.running with
    | false => rfl
    | true => rw [h.running hr] at x; cases x
  rw [g.ended h1, h.ended x]

theorem later_step (s : St) (a : Act) {t : Nat} {k : Task} (hk : s.tasks[t]? = some k) : ∃ k', (step s a).tasks[t]? = some k' ∧ Later k k' := by
  have hlt : t < s.tasks.length := (List.getElem?_eq_some_iff.1 hk).1
  have same : ∃ k', s.tasks[t]? = some k' ∧ Later k k' := ⟨k, hk, Later.refl k⟩
  have upd : ∀ (t' : Nat) (k1 k' : Task), s.tasks[t']? = some k1 → Later k1 k' → ∃ k'', (s.tasks.set t' k')[t]? = some k'' ∧ Later k k'' := by
    intro t' k1 k' h1 h2
    rw [List.getElem?_set]
    by_cases e : t' = t
    · rw [if_pos e, if_pos (e ▸ hlt)]
      rw [e, hk] at h1
      cases h1
      exact ⟨k', rfl, h2⟩
    · rw [if_neg e]; exact same
  cases a with
  | subscribe c => simp only [step, subscribe]; split <;> exact same
  | unsubscribe c => simp only [step, unsubscribe]; split <;> exact same
  | drop c => exact same
  | broadcast ok =>
    simp only [step, start]
    split
    · simp only; rw [List.getElem?_append_left hlt]; exact same
    · exact same
  | turn t' =>
    simp only [step, turn]
    split
    · exact same
    · rename_i k1 hk1
      split
      · rename_i hr
        simp only [advance]
        split
        · exact upd t' k1 _ hk1 ⟨rfl, Nat.le_succ _, id, fun h => by rw [hr] at h; cases h⟩
        · exact upd t' k1 _ hk1 ⟨rfl, Nat.le_refl _, fun h => by simp at h, fun _ => rfl⟩
      · exact same
  | abort t' =>
    simp only [step, abort]
    split
    · exact same
    · rename_i k1 hk1
      split
      · exact upd t' k1 _ hk1 ⟨rfl, Nat.le_refl _, fun h => by simp at h, fun _ => rfl⟩
      · exact same

theorem later_run : ∀ (as : List Act) (s : St) {t : Nat} {k : Task}, s.tasks[t]? = some k → ∃ k', (run s as).tasks[t]? = some k' ∧ Later k k'
  | [], _, _, k, hk => ⟨k, hk, Later.refl k⟩
  | a :: as, s, t, k, hk => by
    obtain ⟨k1, h1, h2⟩ := later_step s a hk
    obtain ⟨k2, g1, g2⟩ := later_run as (step s a) h1
    exact ⟨k2, g1, h2.trans g2⟩

/-- The number of calls of `broadcast` begun in a history. -/
def started (as : List Act) : Nat := as.count (.broadcast true)

theorem length_step (s : St) (a : Act) : (step s a).tasks.length = s.tasks.length + [a].count (.broadcast true) := by
  cases a with
  | subscribe c => simp only [step, subscribe]; split <;> simp
  | unsubscribe c => simp only [step, unsubscribe]; split <;> simp
  | drop c => simp [step]
  | broadcast ok => cases ok <;> simp [step, start]
  | turn t =>
    simp only [step, turn]
    split
    · simp
    · split
      · simp only [advance]; split <;> simp
      · simp
  | abort t =>
    simp only [step, abort]
    split
    · simp
    · split <;> simp

theorem length_run : ∀ (as : List Act) (s : St), (run s as).tasks.length = s.tasks.length + started as
  | [], s => by simp [run, started]
  | a :: as, s => by
    show (run (step s a) as).tasks.length = _
    rw [length_run as, length_step, started, started, show a :: as = [a] ++ as from rfl, List.count_append]
    omega

theorem gone_step (s : St) (a : Act) (h : Nat) : h ∈ (step s a).gone ↔ a = .drop h ∨ h ∈ s.gone := by
  cases a with
  | subscribe c => simp only [step, subscribe]; split <;> simp
  | unsubscribe c => simp only [step, unsubscribe]; split <;> simp
  | drop c => simp [step, eq_comm]
  | broadcast ok => cases ok <;> simp [step, start]
  | turn t =>
    simp only [step, turn]
    split
    · simp
    · split
      · simp only [advance]; split <;> simp
      · simp
  | abort t =>
    simp only [step, abort]
    split
    · simp
    · split <;> simp

theorem gone_run (h : Nat) : ∀ (as : List Act) (s : St), h ∈ (run s as).gone ↔ .drop h ∈ as ∨ h ∈ s.gone
  | [], s => by simp [run]
  | a :: as, s => by
    show h ∈ (run (step s a) as).gone ↔ _
    rw [gone_run h as, gone_step, List.mem_cons, eq_comm (a := Act.drop h)]
    constructor
    · rintro (g | g | g)
      · exact Or.inl (Or.inr g)
      · exact Or.inl (Or.inl g)
      · exact Or.inr g
    · rintro ((g | g) | g)
      · exact Or.inr (Or.inl g)
      · exact Or.inl g
      · exact Or.inr (Or.inr g)

theorem alive_iff (s : St) (h : Nat) : alive s h = true ↔ h ∉ s.gone ∨ ∃ (t : Nat) (k : Task), s.tasks[t]? = some k ∧ k.running = true ∧ h ∈ k.callbacks := by
  simp only [alive, Bool.or_eq_true, Bool.not_eq_true', decide_eq_false_iff_not, List.any_eq_true, Task.holds, Bool.and_eq_true, decide_eq_true_eq]
  constructor
  · rintro (g | ⟨k, hk, g⟩)
    · exact Or.inl g
    · obtain ⟨t, ht⟩ := List.mem_iff_getElem?.1 hk
      exact Or.inr ⟨t, k, ht, g⟩
  · rintro (g | ⟨t, k, hk, g⟩)
    · exact Or.inl g
    · exact Or.inr ⟨k, List.mem_of_getElem? hk, g⟩

theorem mem_live (s : St) (h : Nat) : h ∈ live s ↔ h ∈ s.subs ∧ alive s h = true := by simp [live, List.mem_filter]

/-- A callback that no longer exists does not come back. -/
theorem alive_step {s : St} {a : Act} {h : Nat} (ha : alive (step s a) h = true) : alive s h = true := by
  rw [alive_iff] at ha ⊢
  rcases ha with g | ⟨t, k', hk', hr, hm⟩
  · exact Or.inl (fun hg => g ((gone_step s a h).2 (Or.inr hg)))
  · cases hk : s.tasks[t]? with
    | some k =>
      obtain ⟨k'', h1, h2⟩ := later_step s a hk
      rw [hk'] at h1
      cases h1
      exact Or.inr ⟨t, k, hk, h2.running hr, h2.callbacks ▸ hm⟩
    | none =>
      have hlen := List.getElem?_eq_none_iff.1 hk
      have hlt := (List.getElem?_eq_some_iff.1 hk').1
      rw [length_step] at hlt
      have hb : a = .broadcast true := by
        by_cases e : a = .broadcast true
        · exact e
        · rw [List.count_singleton, if_neg (by simpa using e)] at hlt; omega
      subst hb
      simp only [step, start, if_true] at hk'
      rw [List.getElem?_append_right hlen] at hk'
      cases hj : t - s.tasks.length with
      | succ j => rw [hj] at hk'; simp at hk'
      | zero =>
        rw [hj] at hk'
        simp only [List.getElem?_cons_zero, Option.some.injEq] at hk'
        subst hk'
        exact (alive_iff s h).1 ((mem_live s h).1 hm).2

theorem subscribed_snoc (as : List Act) (a : Act) (h : Nat) :
    Subscribed (as ++ [a]) h ↔ a = .subscribe h ∨ (a ≠ .unsubscribe h ∧ Subscribed as h) := by
  constructor
  · rintro ⟨pre, post, e, hn⟩
    rcases List.eq_nil_or_concat post with rfl | ⟨post', b, rfl⟩
    · have := List.append_inj' e rfl
      simp only [List.cons.injEq, and_true] at this
      exact Or.inl this.2
    · have e' : as ++ [a] = (pre ++ .subscribe h :: post') ++ [b] := by rw [e]; simp
      have := List.append_inj' e' rfl
      simp only [List.cons.injEq, and_true] at this
      refine Or.inr ⟨fun ha => hn ?_, pre, post', this.1, fun hm => hn ?_⟩
      · rw [← this.2, ha]; simp
      · simp [hm]
  · rintro (rfl | ⟨h1, pre, post, rfl, h2⟩)
    · exact ⟨as, [], rfl, by simp⟩
    · refine ⟨pre, post ++ [a], by simp, fun hm => ?_⟩
      rcases List.mem_append.1 hm with g | g
      · exact h2 g
      · simp only [List.mem_singleton] at g; exact h1 g.symm

theorem subs_step {s : St} (hs : Inv s) (a : Act) (h : Nat) (ha : alive (step s a) h = true) :
    h ∈ (step s a).subs ↔ a = .subscribe h ∨ (a ≠ .unsubscribe h ∧ h ∈ s.subs) := by
  have ha' := alive_step ha
  cases a with
  | subscribe c =>
    simp only [step, subscribe]
    by_cases e : c = h
    · subst e
      by_cases hc : c ∈ s.subs
      · simp [hc]
      · simp [hc, ha']
    · split
      · simp [e, eq_comm]
        exact or_comm
      · simp [e]
  | unsubscribe c =>
    simp only [step, unsubscribe]
    by_cases e : c = h
    · subst e
      simp only [ha', if_true, hs.nodup.mem_erase_iff]
      simp
    · split
      · simp only [hs.nodup.mem_erase_iff]
        simp [e]
        intro _ he; exact e he.symm
      · simp [e]
  | drop c => simp [step]
  | broadcast ok => cases ok <;> simp [step, start, mem_live, ha']
  | turn t =>
    simp only [step, turn]
    split
    · simp
    · split
      · simp only [advance]; split <;> simp
      · simp
  | abort t =>
    simp only [step, abort]
    split
    · simp
    · split <;> simp

theorem snoc_induction {P : List Act → Prop} (h0 : P []) (h1 : ∀ as a, P as → P (as ++ [a])) (as : List Act) : P as := by
  rw [← List.reverse_reverse as]
  induction as.reverse with
  | nil => exact h0
  | cons a l ih => rw [List.reverse_cons]; exact h1 _ a ih

theorem subs_run (h : Nat) (as : List Act) : alive (run {} as) h = true → (h ∈ (run {} as).subs ↔ Subscribed as h) := by
  refine snoc_induction (P := fun as => alive (run {} as) h = true → (h ∈ (run {} as).subs ↔ Subscribed as h)) ?_ ?_ as
  · intro _; simp [run, Subscribed]
  · intro as a ih ha
    rw [run_snoc] at ha ⊢
    rw [subs_step (inv_run as inv_init) a h ha, subscribed_snoc, ih (alive_step ha)]

/-! ### C286 -/

/-- The callback exists after the history: nobody has dropped it, or a broadcast that has not ended is to call it or has called it. -/
def Exists_ (as : List Act) (h : Nat) : Prop :=
  .drop h ∉ as ∨ ∃ (t : Nat) (k : Task), (run {} as).tasks[t]? = some k ∧ k.running = true ∧ h ∈ k.callbacks

/-- **C286**: whatever the callbacks and other tasks do (subscribe, unsubscribe, drop callbacks, broadcast, abort), in every order: a broadcast begun after the
history `pre` calls, in a fixed order and each at most once, only callbacks that were subscribed and existed when it began; when it returns, it has called all
of them.  (Which order: `C286_order`.) -/
theorem C286_exact (pre post : List Act) :
    ∃ l : List Nat, l = live (run {} pre) ∧ l.Nodup ∧ (∀ h, h ∈ l ↔ Subscribed pre h ∧ Exists_ pre h) ∧
      callsOf (started pre) (run {} (pre ++ .broadcast true :: post)).log <+: l ∧
      (.returned (started pre) ∈ (run {} (pre ++ .broadcast true :: post)).log → callsOf (started pre) (run {} (pre ++ .broadcast true :: post)).log = l) := by
  have hinv := inv_run pre inv_init
  refine ⟨live (run {} pre), rfl, hinv.nodup.sublist List.filter_sublist, fun h => ?_, ?_⟩
  · have hg := gone_run h pre {}
    simp only [List.not_mem_nil, or_false] at hg
    have hal : alive (run {} pre) h = true ↔ Exists_ pre h := by
      rw [alive_iff, hg]; rfl
    rw [mem_live]
    constructor
    · rintro ⟨h1, h2⟩; exact ⟨(subs_run h pre h2).1 h1, hal.1 h2⟩
    · rintro ⟨h1, h2⟩; exact ⟨(subs_run h pre (hal.2 h2)).2 h1, hal.2 h2⟩
  · have hl := length_run pre {}
    simp only [List.length_nil, Nat.zero_add] at hl
    rw [show pre ++ .broadcast true :: post = (pre ++ [.broadcast true]) ++ post by simp, run_append, run_snoc]
    have hk : (step (run {} pre) (.broadcast true)).tasks[started pre]? = some { callbacks := live (run {} pre) } := by
      simp only [step, start, if_true]
      rw [← hl, List.getElem?_append_right (Nat.le_refl _), Nat.sub_self]; rfl
    obtain ⟨k', h1, h2⟩ := later_run post _ hk
    have hfin := inv_run post (inv_step hinv (.broadcast true))
    refine ⟨?_, fun hret => ?_⟩
    · rw [hfin.calls _ k' h1, h2.callbacks]; exact List.take_prefix _ _
    · rw [(hfin.done _ k' h1 hret).1, h2.callbacks]

theorem alive_subscribe (s : St) (c h : Nat) : alive (subscribe c s) h = alive s h := by
  simp only [subscribe]; split <;> rfl

/-- **C286**, the order: a callback that subscribes comes after all others, everything else leaves the order alone. -/
theorem C286_order (as : List Act) (a : Act) :
    (∀ h, a = .subscribe h → Exists_ as h → ¬ Subscribed as h → live (run {} (as ++ [a])) = live (run {} as) ++ [h]) ∧
    ((∀ h, a = .subscribe h → Exists_ as h → Subscribed as h) → (live (run {} (as ++ [a]))).Sublist (live (run {} as))) := by
  have hal : ∀ h, alive (run {} as) h = true ↔ Exists_ as h := by
    intro h
    have hg := gone_run h as {}
    simp only [List.not_mem_nil, or_false] at hg
    rw [alive_iff, hg]; rfl
  rw [run_snoc]
  have hsub : ∀ s' : St, s'.subs.Sublist (run {} as).subs → (∀ h, alive s' h = true → alive (run {} as) h = true) →
      (live s').Sublist (live (run {} as)) := by
    intro s' h1 h2
    simp only [live]
    have : s'.subs.filter (alive s') = (s'.subs.filter (alive s')).filter (alive (run {} as)) := by
      rw [List.filter_filter]
      refine List.filter_congr (fun h _ => ?_)
      cases hx : alive s' h with
      | false => simp
      | true => simp [h2 h hx]
    rw [this]
    exact (List.filter_sublist.trans h1).filter _
  refine ⟨fun h e hx hn => ?_, fun hno => ?_⟩
  · subst e
    have hm : h ∉ (run {} as).subs := fun hm => hn ((subs_run h as ((hal h).2 hx)).1 hm)
    have hx' := (hal h).2 hx
    have hst : step (run {} as) (.subscribe h) = { run {} as with subs := (run {} as).subs ++ [h] } := by
      simp only [step, subscribe, hx', hm, decide_false, Bool.not_false, Bool.and_self, if_true]
    rw [hst]
    simp only [live, List.filter_append]
    have : ∀ g, alive { run {} as with subs := (run {} as).subs ++ [h] } g = alive (run {} as) g := fun _ => rfl
    rw [show alive { run {} as with subs := (run {} as).subs ++ [h] } = alive (run {} as) from funext this]
    rw [List.filter_cons, if_pos hx', List.filter_nil]
  · refine hsub _ ?_ (fun h hh => alive_step hh)
    cases a with
    | subscribe c =>
      simp only [step, subscribe]
      split
      · rename_i hc
        simp only [Bool.and_eq_true, Bool.not_eq_true', decide_eq_false_iff_not] at hc
        exact absurd ((subs_run c as hc.1).2 (hno c rfl ((hal c).1 hc.1))) hc.2
      · exact List.Sublist.refl _
    | unsubscribe c =>
      simp only [step, unsubscribe]
      split
      · exact List.erase_sublist
      · exact List.Sublist.refl _
    | drop c => exact List.Sublist.refl _
    | broadcast ok =>
      cases ok
      · exact List.Sublist.refl _
      · exact List.filter_sublist
    | turn t =>
      simp only [step, turn]
      split
      · exact List.Sublist.refl _
      · split
        · simp only [advance]; split <;> exact List.Sublist.refl _
        · exact List.Sublist.refl _
    | abort t =>
      simp only [step, abort]
      split
      · exact List.Sublist.refl _
      · split <;> exact List.Sublist.refl _

theorem log_step (s : St) (a : Act) : s.log <+: (step s a).log := by
  cases a with
  | subscribe c => simp only [step, subscribe]; split <;> exact List.prefix_refl _
  | unsubscribe c => simp only [step, unsubscribe]; split <;> exact List.prefix_refl _
  | drop c => exact List.prefix_refl _
  | broadcast ok => cases ok <;> simp [step, start]
  | turn t =>
    simp only [step, turn]
    split
    · exact List.prefix_refl _
    · split
      · simp only [advance]; split <;> exact List.prefix_append _ _
      · exact List.prefix_refl _
  | abort t =>
    simp only [step, abort]
    split
    · exact List.prefix_refl _
    · split
      · exact List.prefix_append _ _
      · exact List.prefix_refl _

theorem log_run : ∀ (as : List Act) (s : St), s.log <+: (run s as).log
  | [], s => List.prefix_refl _
  | a :: as, s => (log_step s a).trans (log_run as _)

theorem task_other (s : St) (a : Act) {t : Nat} {k : Task} (hk : s.tasks[t]? = some k) (h1 : a ≠ .turn t) (h2 : a ≠ .abort t) :
    (step s a).tasks[t]? = some k := by
  have hlt : t < s.tasks.length := (List.getElem?_eq_some_iff.1 hk).1
  cases a with
  | subscribe c => simp only [step, subscribe]; split <;> exact hk
  | unsubscribe c => simp only [step, unsubscribe]; split <;> exact hk
  | drop c => exact hk
  | broadcast ok =>
    cases ok
    · exact hk
    · simp only [step, start, if_true]; rw [List.getElem?_append_left hlt]; exact hk
  | turn t' =>
    have e : t' ≠ t := fun e => h1 (by rw [e])
    simp only [step, turn]
    split
    · exact hk
    · split
      · simp only [advance]; split <;> (simp only; rw [List.getElem?_set, if_neg e]; exact hk)
      · exact hk
  | abort t' =>
    have e : t' ≠ t := fun e => h2 (by rw [e])
    simp only [step, abort]
    split
    · exact hk
    · split
      · simp only; rw [List.getElem?_set, if_neg e]; exact hk
      · exact hk

theorem turn_running {s : St} {t : Nat} {k : Task} (hk : s.tasks[t]? = some k) (hr : k.running = true) : step s (.turn t) = advance t k s := by
  simp only [step, turn, hk, hr, if_true]

theorem returns (t : Nat) : ∀ (post : List Act) (s : St) (k : Task), s.tasks[t]? = some k → k.running = true → .abort t ∉ post →
    k.callbacks.length - k.next + 1 ≤ post.count (.turn t) → .returned t ∈ (run s post).log
  | [], s, k, hk, hr, ha, hc => by simp at hc
  | a :: post, s, k, hk, hr, ha, hc => by
    have hlt : t < s.tasks.length := (List.getElem?_eq_some_iff.1 hk).1
    have ha' : .abort t ∉ post := fun h => ha (List.mem_cons_of_mem _ h)
    show .returned t ∈ (run (step s a) post).log
    by_cases e : a = .turn t
    · subst e
      rw [turn_running hk hr]
      simp only [advance]
      rw [List.count_cons_self] at hc
      cases hn : k.callbacks[k.next]? with
      | none => exact (log_run post _).subset (by simp)
      | some c =>
        have hl := (List.getElem?_eq_some_iff.1 hn).1
        refine returns t post _ { k with next := k.next + 1 } ?_ hr ha' ?_
        · simp only; rw [List.getElem?_set_self hlt]
        · simp only; omega
    · have h2 : a ≠ .abort t := fun h => ha (by rw [h]; simp)
      rw [List.count_cons_of_ne e] at hc
      exact returns t post _ k (task_other s a hk e h2) hr ha' hc

/-- **C286**, termination: a broadcast that is not aborted returns after as many turns as it has callbacks, and one. -/
theorem C286_returns (pre post : List Act) (ha : .abort (started pre) ∉ post)
    (hc : (live (run {} pre)).length + 1 ≤ post.count (.turn (started pre))) :
    .returned (started pre) ∈ (run {} (pre ++ .broadcast true :: post)).log := by
  have hl := length_run pre {}
  simp only [List.length_nil, Nat.zero_add] at hl
  rw [show pre ++ .broadcast true :: post = (pre ++ [.broadcast true]) ++ post by simp, run_append, run_snoc]
  refine returns _ post _ { callbacks := live (run {} pre) } ?_ rfl ha (by simpa using hc)
  simp only [step, start, if_true]
  rw [← hl, List.getElem?_append_right (Nat.le_refl _), Nat.sub_self]; rfl

/-- Non-vacuity of C286: 1, 2 and 3 subscribe; while 1 runs, it unsubscribes 2, subscribes 4 and broadcasts; 3 is dropped.  The first broadcast still reaches
1, 2 and 3, the second one 1, 3 and 4 (3 exists because the first broadcast holds it). -/
example :
    let s := run {} [.subscribe 1, .subscribe 2, .subscribe 3, .broadcast true, .turn 0, .unsubscribe 2, .subscribe 4, .drop 3, .broadcast true, .turn 1, .turn 0,
      .turn 1, .turn 0, .turn 0, .turn 1, .turn 1]
    callsOf 0 s.log = [1, 2, 3] ∧ callsOf 1 s.log = [1, 3, 4] ∧ .returned 0 ∈ s.log ∧ .returned 1 ∈ s.log := by decide

/-! ### C287 -/

theorem absent_step {s : St} {h n : Nat} (h1 : h ∉ s.subs) (h2 : ∀ (t : Nat) k, s.tasks[t]? = some k → n ≤ t → h ∉ k.callbacks) (a : Act) (ha : a ≠ .subscribe h) :
    h ∉ (step s a).subs ∧ ∀ (t : Nat) k, (step s a).tasks[t]? = some k → n ≤ t → h ∉ k.callbacks := by
  refine ⟨?_, fun t k' hk' hn => ?_⟩
  · cases a with
    | subscribe c =>
      simp only [step, subscribe]
      split
      · intro hm
        rcases List.mem_append.1 hm with g | g
        · exact h1 g
        · simp only [List.mem_singleton] at g; exact ha (by rw [g])
      · exact h1
    | unsubscribe c =>
      simp only [step, unsubscribe]
      split
      · exact fun hm => h1 (List.mem_of_mem_erase hm)
      · exact h1
    | drop c => exact h1
    | broadcast ok =>
      cases ok
      · exact h1
      · exact fun hm => h1 ((mem_live s h).1 hm).1
    | turn t =>
      simp only [step, turn]
      split
      · exact h1
      · split
        · simp only [advance]; split <;> exact h1
        · exact h1
    | abort t =>
      simp only [step, abort]
      split
      · exact h1
      · split <;> exact h1
  · cases hk : s.tasks[t]? with
    | some k =>
      obtain ⟨k'', g1, g2⟩ := later_step s a hk
      rw [hk'] at g1
      cases g1
      rw [g2.callbacks]; exact h2 t k hk hn
    | none =>
      have hlen := List.getElem?_eq_none_iff.1 hk
      have hlt := (List.getElem?_eq_some_iff.1 hk').1
      rw [length_step] at hlt
      have hb : a = .broadcast true := by
        by_cases e : a = .broadcast true
        · exact e
        · rw [List.count_singleton, if_neg (by simpa using e)] at hlt; omega
      subst hb
      simp only [step, start, if_true] at hk'
      rw [List.getElem?_append_right hlen] at hk'
      cases hj : t - s.tasks.length with
      | succ j => rw [hj] at hk'; simp at hk'
      | zero =>
        rw [hj] at hk'
        simp only [List.getElem?_cons_zero, Option.some.injEq] at hk'
        subst hk'
        exact fun hm => h1 ((mem_live s h).1 hm).1

theorem absent_run {h n : Nat} : ∀ (as : List Act) {s : St}, h ∉ s.subs → (∀ (t : Nat) k, s.tasks[t]? = some k → n ≤ t → h ∉ k.callbacks) → .subscribe h ∉ as →
    ∀ (t : Nat) k, (run s as).tasks[t]? = some k → n ≤ t → h ∉ k.callbacks
  | [], _, _, h2, _ => h2
  | a :: as, s, h1, h2, hn => by
    have ha : a ≠ .subscribe h := fun e => hn (by rw [e]; simp)
    obtain ⟨g1, g2⟩ := absent_step h1 h2 a ha
    exact absent_run as g1 g2 (fun hm => hn (List.mem_cons_of_mem _ hm))

theorem turns (t : Nat) : ∀ (n : Nat) (s : St) (k : Task), s.tasks[t]? = some k → k.running = true → n ≤ k.callbacks.length - k.next →
    ∃ k', (run s (List.replicate n (.turn t))).tasks[t]? = some k' ∧ k'.callbacks = k.callbacks ∧ k'.next = k.next + n
  | 0, s, k, hk, _, _ => ⟨k, hk, rfl, rfl⟩
  | n + 1, s, k, hk, hr, hn => by
    have hlt : t < s.tasks.length := (List.getElem?_eq_some_iff.1 hk).1
    show ∃ k', (run (step s (.turn t)) (List.replicate n (.turn t))).tasks[t]? = some k' ∧ _
    rw [turn_running hk hr]
    have hl : k.next < k.callbacks.length := by omega
    simp only [advance, List.getElem?_eq_getElem hl]
    obtain ⟨k', h1, h2, h3⟩ := turns t n { s with tasks := s.tasks.set t { k with next := k.next + 1 }, log := s.log ++ [.called t k.callbacks[k.next]] }
      { k with next := k.next + 1 } (by simp only; rw [List.getElem?_set_self hlt]) hr (by simp only; omega)
    exact ⟨k', h1, h2, by rw [h3]; simp only; omega⟩

/-- How often `h` has been called by call number `t` of `broadcast`. -/
def timesCalled (t h : Nat) (s : St) : Nat := (callsOf t s.log).count h

/-- **C287**, exactly: after the history `pre`, somebody unsubscribes the (existing) callback `h`.  It can be called afterwards without being subscribed again if
and only if a broadcast is running that was begun before and has `h` still before it. -/
theorem C287_exact_partial (pre : List Act) (h : Nat) (hx : Exists_ pre h) :
    (∃ post t, .subscribe h ∉ post ∧ timesCalled t h (run {} pre) < timesCalled t h (run {} (pre ++ .unsubscribe h :: post))) ↔
    ∃ (t : Nat) (k : Task), (run {} pre).tasks[t]? = some k ∧ k.running = true ∧ h ∈ k.callbacks.drop k.next := by
  have hinv := inv_run pre inv_init
  have hx' : alive (run {} pre) h = true := by
    have hg := gone_run h pre {}
    simp only [List.not_mem_nil, or_false] at hg
    rw [alive_iff, hg]; exact hx
  have hst : step (run {} pre) (.unsubscribe h) = { run {} pre with subs := (run {} pre).subs.erase h } := by
    simp only [step, unsubscribe, hx', if_true]
  constructor
  · rintro ⟨post, t, hn, hlt⟩
    rw [show pre ++ .unsubscribe h :: post = (pre ++ [.unsubscribe h]) ++ post by simp, run_append, run_snoc] at hlt
    have hfin := inv_run post (inv_step hinv (.unsubscribe h))
    cases hk : (run {} pre).tasks[t]? with
    | some k =>
      obtain ⟨k', h1, h2⟩ := later_run post (step (run {} pre) (.unsubscribe h)) (t := t) (k := k) (by rw [hst]; exact hk)
      refine ⟨t, k, hk, ?_⟩
      simp only [timesCalled] at hlt
      rw [hfin.calls t k' h1, hinv.calls t k hk, h2.callbacks] at hlt
      obtain ⟨d, hd⟩ := Nat.le.dest h2.next
      rw [← hd, List.take_add, List.count_append] at hlt
      have hpos : 0 < ((k.callbacks.drop k.next).take d).count h := by omega
      refine ⟨?_, List.mem_of_mem_take (List.count_pos_iff.1 hpos)⟩
      cases hr : k.running with
      | true => rfl
      | false =>
        have := h2.ended hr
        have hd0 : d = 0 := by omega
        rw [hd0] at hpos; simp at hpos
    | none =>
      exfalso
      have hlen := List.getElem?_eq_none_iff.1 hk
      cases hk' : (run (step (run {} pre) (.unsubscribe h)) post).tasks[t]? with
      | none =>
        have := (hfin.fresh t (List.getElem?_eq_none_iff.1 hk')).1
        simp only [timesCalled, this] at hlt
        simp at hlt
      | some k' =>
        have habs := absent_run (n := (run {} pre).tasks.length) post (s := step (run {} pre) (.unsubscribe h)) (h := h)
          (by rw [hst]; simp only [hinv.nodup.mem_erase_iff]; simp)
          (by
            intro t' k1 hk1 hge
            rw [hst] at hk1
            have := (List.getElem?_eq_some_iff.1 hk1).1
            simp only at this; omega)
          hn t k' hk' hlen
        simp only [timesCalled] at hlt
        rw [hfin.calls t k' hk'] at hlt
        have hz : (k'.callbacks.take k'.next).count h = 0 := List.count_eq_zero.2 (fun hm => habs (List.mem_of_mem_take hm))
        omega
  · rintro ⟨t, k, hk, hr, hm⟩
    refine ⟨List.replicate (k.callbacks.length - k.next) (.turn t), t, fun hm => ?_, ?_⟩
    · have := List.eq_of_mem_replicate hm; cases this
    · rw [show ∀ post, pre ++ .unsubscribe h :: post = (pre ++ [.unsubscribe h]) ++ post by simp, run_append, run_snoc]
      have hk1 : (step (run {} pre) (.unsubscribe h)).tasks[t]? = some k := by rw [hst]; exact hk
      obtain ⟨k', h1, h2, h3⟩ := turns t _ _ k hk1 hr (Nat.le_refl _)
      have hfin := inv_run (List.replicate (k.callbacks.length - k.next) (.turn t)) (inv_step hinv (.unsubscribe h))
      simp only [timesCalled]
      rw [hfin.calls t k' h1, hinv.calls t k hk, h2, h3, List.take_add, List.count_append]
      have : 0 < ((k.callbacks.drop k.next).take (k.callbacks.length - k.next)).count h := by
        rw [List.take_of_length_le (by simp)]
        exact List.count_pos_iff.2 hm
      omega

/-- **C287 fails**: 1 and 2 subscribe and a broadcast begins; 1 unsubscribes 2, which is called nevertheless. -/
theorem C287_violation :
    let pre : List Act := [.subscribe 1, .subscribe 2, .broadcast true, .turn 0]
    let s := run {} (pre ++ [.unsubscribe 2, .turn 0])
    s.subs = [1] ∧ s.log = [.called 0 1, .called 0 2] := by decide

/-- Non-vacuity of C287: when no broadcast runs, the condition fails. -/
example : ¬ ∃ (t : Nat) (k : Task), (run {} [.subscribe 1, .subscribe 2, .broadcast true, .turn 0, .turn 0, .turn 0]).tasks[t]? = some k ∧ k.running = true ∧
    2 ∈ k.callbacks.drop k.next := by
  rintro ⟨t, k, hk, hr, -⟩
  have e : (run {} [.subscribe 1, .subscribe 2, .broadcast true, .turn 0, .turn 0, .turn 0]).tasks = [⟨[1, 2], 2, false⟩] := by decide
  rw [e] at hk
  cases t with
  | zero => simp only [List.getElem?_cons_zero, Option.some.injEq] at hk; subst hk; cases hr
  | succ t => simp at hk

/-! ### C286, ends of broadcasts -/

/-- Which calls of `broadcast` have ended, and how. -/
structure Life (s : St) : Prop where
  len : ∀ (t : Nat) k, s.tasks[t]? = some k → k.next ≤ k.callbacks.length
  runs : ∀ (t : Nat) k, s.tasks[t]? = some k → (k.running = true ↔ Ev.returned t ∉ s.log ∧ Ev.aborted t ∉ s.log)
  fresh : ∀ t, s.tasks.length ≤ t → Ev.returned t ∉ s.log ∧ Ev.aborted t ∉ s.log
  ab : ∀ (t : Nat) k, s.tasks[t]? = some k → Ev.aborted t ∈ s.log → 0 < k.next ∧ Ev.returned t ∉ s.log

/-- One call of `broadcast` changes, and the log gets one entry about it. -/
theorem Life.set {s : St} (v : Life s) {t : Nat} {k k' : Task} {e : Ev} (hk : s.tasks[t]? = some k) (hr : k.running = true) (hl : k'.next ≤ k'.callbacks.length)
    (he : ∀ t', t' ≠ t → e ≠ .returned t' ∧ e ≠ .aborted t') (hrun : k'.running = true ↔ e ≠ .returned t ∧ e ≠ .aborted t) (hab : e = .aborted t → 0 < k'.next) :
    Life { s with tasks := s.tasks.set t k', log := s.log ++ [e] } := by
  have hlt : t < s.tasks.length := (List.getElem?_eq_some_iff.1 hk).1
  have old := (v.runs t k hk).mp hr
  have other : ∀ t', t' ≠ t → (Ev.returned t' ∈ s.log ++ [e] ↔ Ev.returned t' ∈ s.log) ∧ (Ev.aborted t' ∈ s.log ++ [e] ↔ Ev.aborted t' ∈ s.log) := by
    intro t' n
    have := he t' n
    constructor
    · simp only [List.mem_append, List.mem_singleton]; exact ⟨fun x => x.elim id (fun y => absurd y.symm this.1), .inl⟩
    · simp only [List.mem_append, List.mem_singleton]; exact ⟨fun x => x.elim id (fun y => absurd y.symm this.2), .inl⟩
  have self : (Ev.returned t ∈ s.log ++ [e] ↔ e = .returned t) ∧ (Ev.aborted t ∈ s.log ++ [e] ↔ e = .aborted t) := by
    constructor
    · simp only [List.mem_append, List.mem_singleton]; exact ⟨fun x => x.elim (fun y => absurd y old.1) Eq.symm, fun x => .inr x.symm⟩
    · simp only [List.mem_append, List.mem_singleton]; exact ⟨fun x => x.elim (fun y => absurd y old.2) Eq.symm, fun x => .inr x.symm⟩
  have get : ∀ (t' : Nat) k1, (s.tasks.set t k')[t']? = some k1 → (t' = t ∧ k1 = k') ∨ (t' ≠ t ∧ s.tasks[t']? = some k1) := by
    intro t' k1 h
    rw [List.getElem?_set] at h
    by_cases c : t = t'
    · rw [if_pos c, if_pos (by omega)] at h; cases h; exact .inl ⟨c.symm, rfl⟩
    · rw [if_neg c] at h; exact .inr ⟨fun x => c x.symm, h⟩
  refine ⟨?_, ?_, ?_, ?_⟩ <;> dsimp only
  · intro t' k1 h
    rcases get t' k1 h with ⟨_, rfl⟩ | ⟨_, h⟩
    · exact hl
    · exact v.len t' k1 h
  · intro t' k1 h
    rcases get t' k1 h with ⟨rfl, rfl⟩ | ⟨n, h⟩
    · rw [hrun, self.1, self.2]
    · rw [(other t' n).1, (other t' n).2]; exact v.runs t' k1 h
  · intro t' h
    rw [List.length_set] at h
    have n : t' ≠ t := by omega
    rw [(other t' n).1, (other t' n).2]; exact v.fresh t' h
  · intro t' k1 h
    rcases get t' k1 h with ⟨rfl, rfl⟩ | ⟨n, h⟩
    · rw [self.1, self.2]; intro x; exact ⟨hab x, by rw [x]; simp⟩
    · rw [(other t' n).1, (other t' n).2]; exact v.ab t' k1 h

theorem Life.step {s : St} (v : Life s) (a : Act) : Life (step s a) := by
  cases a with
  | subscribe c => simp only [BroadcastConc.step, subscribe]; split <;> exact ⟨v.len, v.runs, v.fresh, v.ab⟩
  | unsubscribe c => simp only [BroadcastConc.step, unsubscribe]; split <;> exact ⟨v.len, v.runs, v.fresh, v.ab⟩
  | drop c => exact ⟨v.len, v.runs, v.fresh, v.ab⟩
  | broadcast ok =>
    cases ok with
    | false =>
      have h : ∀ t, (Ev.returned t ∈ s.log ++ [Ev.refused] ↔ Ev.returned t ∈ s.log) ∧ (Ev.aborted t ∈ s.log ++ [Ev.refused] ↔ Ev.aborted t ∈ s.log) := by
        intro t; simp
      refine ⟨v.len, ?_, ?_, ?_⟩ <;> intro t
      · intro k hk; show _ ↔ Ev.returned t ∉ s.log ++ [Ev.refused] ∧ _ ∉ s.log ++ [Ev.refused]; rw [(h t).1, (h t).2]; exact v.runs t k hk
      · intro hk; show Ev.returned t ∉ s.log ++ [Ev.refused] ∧ _ ∉ s.log ++ [Ev.refused]; rw [(h t).1, (h t).2]; exact v.fresh t hk
      · intro k hk; show Ev.aborted t ∈ s.log ++ [Ev.refused] → _ ∧ _ ∉ s.log ++ [Ev.refused]; rw [(h t).1, (h t).2]; exact v.ab t k hk
    | true =>
      have get : ∀ (t : Nat) k, (s.tasks ++ [{ callbacks := live s }])[t]? = some k → s.tasks[t]? = some k ∨ (t = s.tasks.length ∧ k = { callbacks := live s }) := by
        intro t k h
        by_cases c : t < s.tasks.length
        · rw [List.getElem?_append_left c] at h; exact .inl h
        · rw [List.getElem?_append_right (by omega)] at h
          have : t - s.tasks.length = 0 := by
            have := (List.getElem?_eq_some_iff.1 h).1; simp at this; omega
          rw [this] at h; cases h; exact .inr ⟨by omega, rfl⟩
      refine ⟨?_, ?_, ?_, ?_⟩ <;> intro t
      · intro k h; rcases get t k h with h | ⟨_, rfl⟩
        · exact v.len t k h
        · exact Nat.zero_le _
      · intro k h; rcases get t k h with h | ⟨e, rfl⟩
        · exact v.runs t k h
        · have := v.fresh t (by omega)
          exact ⟨fun _ => this, fun _ => rfl⟩
      · intro h
        have h : (s.tasks ++ [({ callbacks := live s } : Task)]).length ≤ t := h
        exact v.fresh t (by simp at h; omega)
      · intro k h; rcases get t k h with h | ⟨e, rfl⟩
        · exact v.ab t k h
        · intro x; exact absurd x (v.fresh t (by omega)).2
  | turn t =>
    simp only [BroadcastConc.step, turn]
    cases hk : s.tasks[t]? with
    | none => exact v
    | some k =>
      dsimp only
      by_cases c : k.running = true
      · rw [if_pos c]
        simp only [advance]
        cases hn : k.callbacks[k.next]? with
        | none => exact v.set hk c (v.len t k hk) (by intro t' n; simp [Ne.symm n]) (by simp) (by simp)
        | some h =>
          have := (List.getElem?_eq_some_iff.1 hn).1
          exact v.set hk c (show k.next + 1 ≤ k.callbacks.length by omega) (by intro t' n; simp) (by simp [c]) (by simp)
      · rw [if_neg c]; exact v
  | abort t =>
    simp only [BroadcastConc.step, abort]
    cases hk : s.tasks[t]? with
    | none => exact v
    | some k =>
      dsimp only
      by_cases c : (k.running && decide (0 < k.next)) = true
      · rw [if_pos c]
        have c' : k.running = true ∧ 0 < k.next := by simpa using c
        exact v.set hk c'.1 (v.len t k hk) (by intro t' n; simp [Ne.symm n]) (by simp) (by intro _; exact c'.2)
      · rw [if_neg c]; exact v

theorem Life.run : ∀ (as : List Act) {s : St}, Life s → Life (run s as)
  | [], _, v => v
  | a :: as, _, v => Life.run as (v.step a)

theorem init_life : Life {} := ⟨fun t k h => by simp at h, fun t k h => by simp at h, fun t _ => by simp, fun t k h => by simp at h⟩

/-- **C286**, the ends: a broadcast can be ended by an exception of a callback exactly while it has called one and has not ended; it then never returns and calls nothing more. -/
theorem C286_aborts (as : List Act) (t : Nat) :
    (∀ s, s = run {} as → ((Ev.aborted t ∈ (step s (.abort t)).log ∧ Ev.aborted t ∉ s.log) ↔
      callsOf t s.log ≠ [] ∧ Ev.returned t ∉ s.log ∧ Ev.aborted t ∉ s.log)) ∧
    (Ev.aborted t ∈ (run {} as).log → callsOf t (run {} as).log ≠ [] ∧ ∀ post, callsOf t (run {} (as ++ post)).log = callsOf t (run {} as).log ∧ Ev.returned t ∉ (run {} (as ++ post)).log) := by
  have called : ∀ (as : List Act) k, (run {} as).tasks[t]? = some k → (callsOf t (run {} as).log ≠ [] ↔ 0 < k.next) := by
    intro as k hk
    have h1 := (inv_run as inv_init).calls t k hk
    have h2 := (Life.run as init_life).len t k hk
    rw [h1, ← List.length_pos_iff, List.length_take]
    omega
  refine ⟨?_, ?_⟩
  · rintro s rfl
    have v := Life.run as init_life
    simp only [step, abort]
    cases hk : (run {} as).tasks[t]? with
    | none =>
      dsimp only
      have hlen : (run {} as).tasks.length ≤ t := by simpa using hk
      have := ((inv_run as inv_init).fresh t hlen).1
      exact ⟨fun x => absurd x.1 x.2, fun x => absurd this x.1⟩
    | some k =>
      dsimp only
      rw [called as k hk, ← v.runs t k hk]
      by_cases c : (k.running && decide (0 < k.next)) = true
      · rw [if_pos c]
        have c' : k.running = true ∧ 0 < k.next := by simpa using c
        exact ⟨fun _ => ⟨c'.2, c'.1⟩, fun _ => ⟨by simp, ((v.runs t k hk).mp c'.1).2⟩⟩
      · rw [if_neg c]
        exact ⟨fun x => absurd x.1 x.2, fun x => absurd (by simp [x.1, x.2]) c⟩
  · intro h
    have v := Life.run as init_life
    cases hk : (run {} as).tasks[t]? with
    | none => exact absurd h (v.fresh t (by simpa using hk)).2
    | some k =>
      refine ⟨(called as k hk).mpr (v.ab t k hk h).1, fun post => ?_⟩
      have hr : k.running = false := by
        cases c : k.running with
        | false => rfl
        | true => exact absurd h ((v.runs t k hk).mp c).2
      obtain ⟨k', hk', l⟩ := later_run post (run {} as) hk
      rw [← run_append] at hk'
      have hm : Ev.aborted t ∈ (run {} (as ++ post)).log := by
        rw [run_append]; exact (log_run post _).subset h
      refine ⟨?_, ((Life.run (as ++ post) init_life).ab t k' hk' hm).2⟩
      rw [(inv_run (as ++ post) inv_init).calls t k' hk', (inv_run as inv_init).calls t k hk, l.callbacks, l.ended hr]

/-- A broadcast ended by its first callback; a broadcast that has called nothing cannot end that way. -/
example : (run {} [.subscribe 1, .subscribe 2, .broadcast true, .turn 0, .abort 0, .turn 0]).log = [.called 0 1, .aborted 0] ∧
    (run {} [.subscribe 1, .broadcast true, .abort 0]).log = [] := by decide

end Verif.BroadcastConc
