import Verif.Model.PileConc

/-!
# C86: `include` / `exclude` from several threads
-/

set_option linter.unusedSectionVars false
set_option linter.unusedSimpArgs false
set_option linter.unusedVariables false

namespace Verif.PileConc

/-- What the thread holding the lock has written: `_items` is one step ahead of `_progression`. -/
def Ahead (items order : List Nat) : Call → Prop
  | .incl x valid => valid = true ∧ x ∉ order ∧ items = order ++ [x]
  | .excl x => x ∈ order ∧ items = order.erase x

structure Inv (calls : Nat → Call) (s : State) : Prop where
  nodup : s.order.Nodup
  free : s.lock = none → s.items = s.order
  mid : ∀ t, s.phase t = .mid ↔ s.lock = some t
  ahead : ∀ t, s.lock = some t → Ahead s.items s.order (calls t)

theorem Inv.items_nodup {calls : Nat → Call} {s : State} (h : Inv calls s) : s.items.Nodup := by
  cases hl : s.lock with
  | none => rw [h.free hl]; exact h.nodup
  | some t =>
    have := h.ahead t hl
    cases hc : calls t with
    | incl x v =>
      rw [hc] at this
      obtain ⟨_, h1, h2⟩ := this
      rw [h2, List.nodup_append]
      exact ⟨h.nodup, by simp, by intro a ha b hb; simp at hb; subst hb; exact fun e => h1 (e ▸ ha)⟩
    | excl x =>
      rw [hc] at this
      rw [this.2]
      exact h.nodup.erase x

theorem phase_set (s : State) (t t' : Nat) (p : Phase) : (s.setPhase t p).phase t' = if t' = t then p else s.phase t' := rfl

/-- Changing the phase of a thread that is not inside the locked section to another such phase keeps the invariant. -/
theorem inv_setPhase {calls : Nat → Call} {s : State} (h : Inv calls s) (t : Nat) (p : Phase) (h1 : s.phase t ≠ .mid) (h2 : p ≠ .mid) : Inv calls (s.setPhase t p) := by
  refine ⟨h.nodup, h.free, ?_, h.ahead⟩
  intro t'
  rw [phase_set]
  split
  · next e => subst e; exact ⟨fun hc => absurd hc h2, fun hc => absurd ((h.mid t').2 hc) h1⟩
  · exact h.mid t'

theorem step_inv {calls : Nat → Call} {s : State} (h : Inv calls s) (t : Nat) : Inv calls (step calls s t) := by
  unfold step
  split
  · next hp =>
    cases hc : calls t <;> simp only [check] <;> split <;> exact inv_setPhase h t _ (by rw [hp]; simp) (by simp)
  · next hp =>
    split
    · next hl =>
      have hfree := h.free hl
      have hno : ∀ t', s.phase t' ≠ .mid := fun t' hm => by have := (h.mid t').1 hm; rw [hl] at this; cases this
      have hmid : ∀ (items : List Nat), ∀ t', ({ s with items := items, lock := some t }.setPhase t .mid).phase t' = .mid ↔ some t = some t' := by
        intro items t'
        rw [phase_set]
        split
        · next e => simp [e]
        · next e => exact ⟨fun hm => absurd hm (hno t'), fun he => absurd (Option.some.inj he).symm e⟩
      cases hc : calls t with
      | incl x v =>
        simp only [enter]
        split
        · exact inv_setPhase h t _ (by rw [hp]; simp) (by simp)
        · next hn =>
          have hv : v = true := by cases v <;> simp_all
          have hx : x ∉ s.items := fun hx => hn (Or.inr hx)
          refine ⟨h.nodup, (fun hl' => by cases hl'), hmid _, ?_⟩
          intro t' ht'
          cases ht'
          rw [hc]
          exact ⟨hv, by rw [← hfree]; exact hx, by show s.items ++ [x] = s.order ++ [x]; rw [hfree]⟩
      | excl x =>
        simp only [enter]
        split
        · next hx =>
          refine ⟨h.nodup, (fun hl' => by cases hl'), hmid _, ?_⟩
          intro t' ht'
          cases ht'
          rw [hc]
          exact ⟨by show x ∈ s.order; rw [← hfree]; exact hx, by show s.items.erase x = s.order.erase x; rw [hfree]⟩
        · exact inv_setPhase h t _ (by rw [hp]; simp) (by simp)
    · exact h
  · next hp =>
    have hl := (h.mid t).1 hp
    have ha := h.ahead t hl
    have hmid : ∀ (order : List Nat) t', ({ s with order := order, lock := none }.setPhase t (.done true)).phase t' = .mid ↔ none = some t' := by
      intro order t'
      rw [phase_set]
      split
      · exact ⟨(fun hc => by cases hc), (fun hc => by cases hc)⟩
      · next e =>
        refine ⟨fun hm => ?_, fun hc => by cases hc⟩
        have := (h.mid t').1 hm
        rw [hl] at this
        exact absurd (Option.some.inj this).symm e
    cases hc : calls t with
    | incl x v =>
      rw [hc] at ha
      obtain ⟨_, h1, h2⟩ := ha
      refine ⟨?_, fun _ => h2, hmid _, fun t' ht' => by cases ht'⟩
      show (s.order ++ [x]).Nodup
      have := h.items_nodup
      rw [h2] at this; exact this
    | excl x =>
      rw [hc] at ha
      refine ⟨h.nodup.erase x, fun _ => ha.2, hmid _, fun t' ht' => by cases ht'⟩
  · exact h

theorem initial_inv (calls : Nat → Call) {items : List Nat} (h : items.Nodup) : Inv calls (initial items) :=
  ⟨h, fun _ => rfl, (fun t => ⟨(fun hc => by cases hc), (fun hc => by cases hc)⟩), (fun t hc => by cases hc)⟩

theorem run_inv (calls : Nat → Call) {items : List Nat} (h : items.Nodup) (sched : List Nat) : Inv calls (run calls items sched) := by
  have : ∀ (sched : List Nat) s, Inv calls s → Inv calls (sched.foldl (step calls) s) := by
    intro sched
    induction sched with
    | nil => intro s hs; exact hs
    | cons t sched ih => intro s hs; exact ih _ (step_inv hs t)
  exact this sched _ (initial_inv calls h)

/-- **C86** (consistency). After every interleaving of any number of calls, whenever no call is inside its locked section the pile's order lists exactly its items, in order and without duplicates; the items never contain duplicates. -/
theorem C86_consistent (calls : Nat → Call) (items : List Nat) (h : items.Nodup) (sched : List Nat) :
    (run calls items sched).items.Nodup ∧ ((run calls items sched).lock = none → (run calls items sched).order = (run calls items sched).items) :=
  ⟨(run_inv calls h sched).items_nodup, fun hl => ((run_inv calls h sched).free hl).symm⟩

/-- **C86** (no deadlock). The thread that holds the lock can always move, and its next step releases the lock. -/
theorem C86_lock_released (calls : Nat → Call) (items : List Nat) (h : items.Nodup) (sched : List Nat) (t : Nat) (ht : (run calls items sched).lock = some t) :
    (run calls items (sched ++ [t])).lock = none := by
  have hm := ((run_inv calls h sched).mid t).2 ht
  unfold run at *
  rw [List.foldl_append]
  simp only [List.foldl_cons, List.foldl_nil]
  generalize List.foldl (step calls) (initial items) sched = s at *
  unfold step
  rw [hm]
  cases calls t <;> rfl

/-- What a call promises about the items: an `include` of an admissible item that the item is there, an `exclude` that it is not. -/
def Promise (items : List Nat) : Call → Prop
  | .incl x valid => valid = true → x ∈ items
  | .excl x => x ∉ items

def Finished (s : State) (t : Nat) : Prop := ∃ r, s.phase t = .done r

theorem finish_step {calls : Nat → Call} {s : State} (h : Inv calls s) (t : Nat) (h1 : ¬ Finished s t) (h2 : Finished (step calls s t) t) : Promise (step calls s t).items (calls t) := by
  revert h2
  unfold step
  split
  · next hp =>
    cases hc : calls t <;> simp only [check] <;> split
    · next hx => intro _ _; exact hx
    · intro ⟨r, hr⟩; simp [phase_set] at hr
    · intro ⟨r, hr⟩; simp [phase_set] at hr
    · next hx => intro _; exact hx
  · next hp =>
    split
    · cases hc : calls t <;> simp only [enter] <;> split
      · next x v hv =>
        intro _ hvt
        rcases hv with hv | hv
        · rw [hv] at hvt; cases hvt
        · exact hv
      · intro ⟨r, hr⟩; simp [phase_set] at hr
      · intro ⟨r, hr⟩; simp [phase_set] at hr
      · next hx => intro _; exact hx
    · intro ⟨r, hr⟩; rw [hp] at hr; cases hr
  · next hp =>
    intro _
    have ha := h.ahead t ((h.mid t).1 hp)
    cases hc : calls t with
    | incl x v =>
      rw [hc] at ha
      intro _
      show x ∈ s.items
      rw [ha.2.2]; simp
    | excl x =>
      rw [hc] at ha
      show x ∉ s.items
      rw [ha.2]
      exact fun hm => ((h.nodup.mem_erase_iff).1 hm).1 rfl
  · next r hp => exact absurd ⟨r, hp⟩ h1

/-- **C86** (effect). In every interleaving — includes and excludes mixed, on the same or different items — at the moment a call finishes, whatever it returns, its effect holds: the item of an `include` is in the pile, the item of an `exclude` is not. -/
theorem C86_effect (calls : Nat → Call) (items : List Nat) (h : items.Nodup) (sched : List Nat) (t : Nat)
    (h1 : ¬ Finished (run calls items sched) t) (h2 : Finished (run calls items (sched ++ [t])) t) : Promise (run calls items (sched ++ [t])).items (calls t) := by
  have hi := run_inv calls h sched
  unfold run at *
  rw [List.foldl_append] at *
  exact finish_step hi t h1 h2

/-- The item of a call. -/
def itemOf : Call → Nat
  | .incl x _ => x
  | .excl x => x

/-- No call undoes the promise of another: calls on the same item are of the same kind. -/
def SameKind : Call → Call → Prop
  | .incl x _, .excl y => x ≠ y
  | .excl x, .incl y _ => x ≠ y
  | _, _ => True

theorem step_items {calls : Nat → Call} {s : State} (h : Inv calls s) (t : Nat) :
    (step calls s t).items = s.items ∨ (∃ x, calls t = .incl x true ∧ (step calls s t).items = s.items ++ [x]) ∨ ∃ x, calls t = .excl x ∧ (step calls s t).items = s.items.erase x := by
  unfold step
  split
  · cases hc : calls t <;> simp only [check] <;> split <;> exact Or.inl rfl
  · split
    · cases hc : calls t <;> simp only [enter] <;> split
      · exact Or.inl rfl
      · next x v hv =>
        have : v = true := by cases v <;> simp_all
        subst this
        exact Or.inr (Or.inl ⟨x, rfl, rfl⟩)
      · exact Or.inr (Or.inr ⟨_, rfl, rfl⟩)
      · exact Or.inl rfl
    · exact Or.inl rfl
  · cases hc : calls t <;> exact Or.inl rfl
  · exact Or.inl rfl

theorem promise_step {calls : Nat → Call} {s : State} (h : Inv calls s) (t t' : Nat) (hk : SameKind (calls t') (calls t)) (hp : Promise s.items (calls t')) :
    Promise (step calls s t).items (calls t') := by
  rcases step_items h t with he | ⟨x, hc, he⟩ | ⟨x, hc, he⟩
  · rw [he]; exact hp
  · rw [he]; rw [hc] at hk
    cases hc' : calls t' with
    | incl y v => rw [hc'] at hp; intro hv; exact List.mem_append.2 (Or.inl (hp hv))
    | excl y =>
      rw [hc'] at hp hk
      intro hm
      rcases List.mem_append.1 hm with hm | hm
      · exact hp hm
      · exact hk (List.mem_singleton.1 hm)
  · rw [he]; rw [hc] at hk
    cases hc' : calls t' with
    | incl y v => rw [hc'] at hp hk; intro hv; exact (List.mem_erase_of_ne hk).2 (hp hv)
    | excl y => rw [hc'] at hp; intro hm; exact hp (List.mem_of_mem_erase hm)

/-- **C86** (membership afterwards). If no item is both included and excluded, then from the moment a call has finished its effect holds for ever: all included items are in the pile and all excluded ones are absent once their calls are done — for any number of threads and every interleaving. -/
theorem C86_membership (calls : Nat → Call) (items : List Nat) (h : items.Nodup) (hk : ∀ t t', SameKind (calls t) (calls t')) (sched : List Nat) (t : Nat)
    (ht : Finished (run calls items sched) t) : Promise (run calls items sched).items (calls t) := by
  have : ∀ (sched : List Nat) s, Inv calls s → (∀ t, Finished s t → Promise s.items (calls t)) → ∀ t, Finished (sched.foldl (step calls) s) t → Promise (sched.foldl (step calls) s).items (calls t) := by
    intro sched
    induction sched with
    | nil => intro s _ hs; exact hs
    | cons u sched ih =>
      intro s hi hs
      refine ih _ (step_inv hi u) ?_
      intro t ht
      by_cases hf : Finished s t
      · exact promise_step hi u t (hk t u) (hs t hf)
      · by_cases e : t = u
        · subst e; exact finish_step hi t hf ht
        · exfalso
          apply hf
          obtain ⟨r, hr⟩ := ht
          refine ⟨r, ?_⟩
          rw [← hr]
          unfold step
          split
          · cases calls u <;> simp only [check] <;> split <;> simp [phase_set, e]
          · split
            · cases calls u <;> simp only [enter] <;> split <;> simp [phase_set, e]
            · rfl
          · cases calls u <;> simp [leave, phase_set, e]
          · rfl
  exact this sched _ (initial_inv calls h) (fun t ⟨r, hr⟩ => by cases hr) t ht

/-- Between its check and its locked section, the situation a call saw still holds. -/
def Pending (items : List Nat) : Call → Prop
  | .incl x _ => x ∉ items
  | .excl x => x ∈ items

theorem phase_other {calls : Nat → Call} {s : State} {t u : Nat} (e : t ≠ u) : (step calls s u).phase t = s.phase t := by
  unfold step
  split
  · cases calls u <;> simp only [check] <;> split <;> simp [phase_set, e]
  · split
    · cases calls u <;> simp only [enter] <;> split <;> simp [phase_set, e]
    · rfl
  · cases calls u <;> simp [leave, phase_set, e]
  · rfl

/-- An admissible call: the item of an `include` passes the type check. -/
def Admissible : Call → Prop
  | .incl _ valid => valid = true
  | .excl _ => True

/-- If what a call saw at its check still holds when it goes on, it returns `True`. -/
theorem returns_of_stay (calls : Nat → Call) (items : List Nat) (h : items.Nodup) (t : Nat) (hv : Admissible (calls t))
    (hst : ∀ (s : State), Inv calls s → ∀ u, u ≠ t → Pending s.items (calls t) → Pending (step calls s u).items (calls t))
    (sched : List Nat) (r : Bool) (hr : (run calls items sched).phase t = .done r) : r = true := by
  have : ∀ (sched : List Nat) s, Inv calls s → (s.phase t = .checked → Pending s.items (calls t)) → (∀ r, s.phase t = .done r → r = true) →
      ∀ r, (sched.foldl (step calls) s).phase t = .done r → r = true := by
    intro sched
    induction sched with
    | nil => intro s _ _ hs; exact hs
    | cons u sched ih =>
      intro s hi hp hs
      refine ih _ (step_inv hi u) ?_ ?_
      · by_cases e : u = t
        · subst e
          unfold step
          split
          · cases hc : calls u <;> simp only [check] <;> split
            · intro hx; simp [phase_set] at hx
            · next hx => intro _; exact hx
            · next hx => intro _; exact hx
            · intro hx; simp [phase_set] at hx
          · next hq =>
            split
            · cases hc : calls u <;> simp only [enter] <;> split <;> (intro hx; simp [phase_set] at hx)
            · exact hp
          · cases hc : calls u <;> (intro hx; simp [leave, phase_set] at hx)
          · next hq => intro hx; rw [hq] at hx; cases hx
        · rw [phase_other (Ne.symm e)]
          exact fun hq => hst s hi u e (hp hq)
      · by_cases e : u = t
        · subst e
          unfold step
          split
          · cases hc : calls u <;> simp only [check] <;> split <;> (intro r hx; simp [phase_set] at hx; try exact hx.symm ▸ rfl)
          · next hq =>
            have hp' := hp hq
            split
            · cases hc : calls u with
              | incl y v =>
                rw [hc] at hp' hv
                simp only [enter]
                rw [if_neg (by rintro (a | a); rw [hv] at a; cases a; exact hp' a)]
                intro r hx; simp [phase_set] at hx
              | excl y =>
                rw [hc] at hp'
                simp only [enter]
                rw [if_pos (show y ∈ s.items from hp')]
                intro r hx; simp [phase_set] at hx
            · exact hs
          · cases hc : calls u <;> (intro r hx; simp [leave, phase_set] at hx; exact hx.symm ▸ rfl)
          · exact hs
        · rw [phase_other (Ne.symm e)]; exact hs
  exact this sched _ (initial_inv calls h) (fun hx => by cases hx) (fun r hx => by cases hx) r hr

/-- **C181** (partial). If no other thread works on the same item, an admissible call returns `True`, whatever the other threads do and in every interleaving. Missing: calls on the same item, see the violation. -/
theorem C181_returns_true_partial (calls : Nat → Call) (items : List Nat) (h : items.Nodup) (t : Nat) (hv : Admissible (calls t)) (hd : ∀ u, u ≠ t → itemOf (calls u) ≠ itemOf (calls t))
    (sched : List Nat) (r : Bool) (hr : (run calls items sched).phase t = .done r) : r = true := by
  refine returns_of_stay calls items h t hv ?_ sched r hr
  intro s hi u e hp'
  have hne := hd u e
  rcases step_items hi u with he | ⟨x, hc, he⟩ | ⟨x, hc, he⟩
  · rw [he]; exact hp'
  · rw [he]; rw [hc] at hne
    cases hc' : calls t with
    | incl y v => rw [hc'] at hp' hne; exact fun hm => by rcases List.mem_append.1 hm with hm | hm; exact hp' hm; exact hne (List.mem_singleton.1 hm).symm
    | excl y => rw [hc'] at hp'; exact List.mem_append.2 (Or.inl hp')
  · rw [he]; rw [hc] at hne
    cases hc' : calls t with
    | incl y v => rw [hc'] at hp'; exact fun hm => hp' (List.mem_of_mem_erase hm)
    | excl y => rw [hc'] at hp' hne; exact (List.mem_erase_of_ne (Ne.symm hne)).2 hp'

/-- The other case: the situation at the check is always the one in which there is nothing to do. -/
theorem returns_of_settled (calls : Nat → Call) (items : List Nat) (h : items.Nodup) (t : Nat) (h0 : ¬ Pending items (calls t))
    (hst : ∀ (s : State), Inv calls s → ∀ u, ¬ Pending s.items (calls t) → ¬ Pending (step calls s u).items (calls t))
    (sched : List Nat) (r : Bool) (hr : (run calls items sched).phase t = .done r) : r = true := by
  have : ∀ (sched : List Nat) s, Inv calls s → ¬ Pending s.items (calls t) → (s.phase t = .start ∨ s.phase t = .done true) →
      ((sched.foldl (step calls) s).phase t = .start ∨ (sched.foldl (step calls) s).phase t = .done true) := by
    intro sched
    induction sched with
    | nil => intro s _ _ hs; exact hs
    | cons u sched ih =>
      intro s hi hp hs
      refine ih _ (step_inv hi u) (hst s hi u hp) ?_
      by_cases e : u = t
      · subst e
        rcases hs with hs | hs
        · refine Or.inr ?_
          cases hc : calls u with
          | incl x b =>
            rw [hc] at hp
            have hx : x ∈ s.items := Decidable.byContradiction hp
            simp [step, hs, hc, check, hx, phase_set]
          | excl x =>
            rw [hc] at hp
            have hx : x ∉ s.items := hp
            simp [step, hs, hc, check, hx, phase_set]
        · refine Or.inr ?_
          simp [step, hs]
      · rw [phase_other (Ne.symm e)]; exact hs
  rcases this sched _ (initial_inv calls h) h0 (Or.inl rfl) with h' | h'
  · have h'' := h'.symm.trans hr; cases h''
  · have h'' := h'.symm.trans hr; cases h''; rfl

/-- Some other thread makes the same call on the item, and the situation in which both are needed can arise: for `include(x)` the item is
missing at first or some thread excludes it; for `exclude(x)` it is there at first or some thread includes it. -/
def Contended (calls : Nat → Call) (items : List Nat) (t : Nat) : Call → Prop
  | .incl x _ => (∃ u, u ≠ t ∧ calls u = .incl x true) ∧ (x ∉ items ∨ ∃ v, calls v = .excl x)
  | .excl x => (∃ u, u ≠ t ∧ calls u = .excl x) ∧ (x ∈ items ∨ ∃ v, calls v = .incl x true)

/-- A thread that makes its call without interruption. -/
theorem alone {calls : Nat → Call} {s : State} {u : Nat} (hs : s.phase u = .start) (hl : s.lock = none) (x : Nat)
    (hc : (calls u = .incl x true ∧ x ∉ s.items) ∨ (calls u = .excl x ∧ x ∈ s.items)) :
    ((calls u = .incl x true → ([u, u, u].foldl (step calls) s).items = s.items ++ [x]) ∧
     (calls u = .excl x → ([u, u, u].foldl (step calls) s).items = s.items.erase x)) ∧
    ([u, u, u].foldl (step calls) s).lock = none ∧ (∀ t, t ≠ u → ([u, u, u].foldl (step calls) s).phase t = s.phase t) := by
  rcases hc with ⟨hc, hx⟩ | ⟨hc, hx⟩
  · refine ⟨⟨fun _ => ?_, fun h => ?_⟩, ?_, ?_⟩
    · simp [step, hs, hc, check, hx, phase_set, State.setPhase, hl, enter, leave]
    · rw [hc] at h; cases h
    · simp [step, hs, hc, check, hx, phase_set, State.setPhase, hl, enter, leave]
    · intro t ht; simp [step, hs, hc, check, hx, phase_set, State.setPhase, hl, enter, leave, ht]
  · refine ⟨⟨fun h => ?_, fun _ => ?_⟩, ?_, ?_⟩
    · rw [hc] at h; cases h
    · simp [step, hs, hc, check, hx, phase_set, State.setPhase, hl, enter, leave]
    · simp [step, hs, hc, check, hx, phase_set, State.setPhase, hl, enter, leave]
    · intro t ht; simp [step, hs, hc, check, hx, phase_set, State.setPhase, hl, enter, leave, ht]

/-- Thread `t` checks, thread `u` makes the same call, `t` goes on: it returns `False`. -/
theorem loses {calls : Nat → Call} {s : State} (hn : s.items.Nodup) {t u : Nat} (htu : u ≠ t) (ht : s.phase t = .start) (hu : s.phase u = .start) (hl : s.lock = none) (x : Nat)
    (hc : (∃ b, calls t = .incl x b ∧ calls u = .incl x true ∧ x ∉ s.items) ∨ (calls t = .excl x ∧ calls u = .excl x ∧ x ∈ s.items)) :
    ([t, u, u, u, t].foldl (step calls) s).phase t = .done false := by
  have h1 : (step calls s t).phase t = .checked ∧ (step calls s t).items = s.items ∧ (step calls s t).lock = none ∧ (step calls s t).phase u = .start := by
    rcases hc with ⟨b, hc, _, hx⟩ | ⟨hc, _, hx⟩
    · simp [step, ht, hc, check, hx, phase_set, State.setPhase, hl, hu, htu]
    · simp [step, ht, hc, check, hx, phase_set, State.setPhase, hl, hu, htu]
  obtain ⟨a1, a2, a3, a4⟩ := h1
  have h2 := alone (calls := calls) (s := step calls s t) (u := u) a4 a3 x (by
    rw [a2]
    rcases hc with ⟨_, _, hc, hx⟩ | ⟨_, hc, hx⟩
    · exact Or.inl ⟨hc, hx⟩
    · exact Or.inr ⟨hc, hx⟩)
  obtain ⟨⟨b1, b2⟩, b3, b4⟩ := h2
  have e : [t, u, u, u, t].foldl (step calls) s = step calls ([u, u, u].foldl (step calls) (step calls s t)) t := rfl
  rw [e]
  generalize [u, u, u].foldl (step calls) (step calls s t) = s2 at b1 b2 b3 b4
  have hp : s2.phase t = .checked := by rw [b4 t (Ne.symm htu), a1]
  rcases hc with ⟨b, hc, hc', hx⟩ | ⟨hc, hc', hx⟩
  · have hi : x ∈ s2.items := by rw [b1 hc', a2]; simp
    simp [step, hp, b3, hc, enter, hi, phase_set]
  · have hi : x ∉ s2.items := by
      rw [b2 hc', a2]
      exact fun hm => (List.Nodup.mem_erase_iff hn).mp hm |>.1 rfl
    simp [step, hp, b3, hc, enter, hi, phase_set]

/-- **C181**, exactly: an admissible call returns `True` in every interleaving if and only if it is not contended. -/
theorem C181_exact_partial (calls : Nat → Call) (items : List Nat) (h : items.Nodup) (t : Nat) (hv : Admissible (calls t)) :
    (∀ (sched : List Nat) (r : Bool), (run calls items sched).phase t = .done r → r = true) ↔ ¬ Contended calls items t (calls t) := by
  constructor
  · intro hall hcon
    have key : ∀ (pre : List Nat) (s : State), s = run calls items pre → s.lock = none → s.phase t = .start →
        ∀ u, u ≠ t → s.phase u = .start → ∀ x, ((∃ b, calls t = .incl x b ∧ calls u = .incl x true ∧ x ∉ s.items) ∨ (calls t = .excl x ∧ calls u = .excl x ∧ x ∈ s.items)) → False := by
      intro pre s hs hl ht u htu hu x hc
      have hn : s.items.Nodup := by rw [hs]; exact (run_inv calls h pre).items_nodup
      have := loses hn htu ht hu hl x hc
      have hr := hall (pre ++ [t, u, u, u, t]) false (by
        rw [← this, hs]
        simp only [run, List.foldl_append])
      cases hr
    cases hct : calls t with
    | incl x b =>
      rw [hct] at hcon
      obtain ⟨⟨u, hut, hu⟩, hx | ⟨v, hv'⟩⟩ := hcon
      · exact key [] _ rfl rfl rfl u hut rfl x (Or.inl ⟨b, hct, hu, hx⟩)
      · by_cases hx : x ∈ items
        · have hvt : v ≠ t := by intro e; rw [e, hct] at hv'; cases hv'
          have hvu : u ≠ v := by intro e; rw [← e, hu] at hv'; cases hv'
          obtain ⟨⟨_, b2⟩, b3, b4⟩ := alone (calls := calls) (s := initial items) (u := v) rfl rfl x (Or.inr ⟨hv', hx⟩)
          refine key [v, v, v] _ rfl b3 ((b4 t (Ne.symm hvt)).trans rfl) u hut ((b4 u hvu).trans rfl) x (Or.inl ⟨b, hct, hu, ?_⟩)
          show x ∉ ([v, v, v].foldl (step calls) (initial items)).items
          rw [b2 hv']
          exact fun hm => (List.Nodup.mem_erase_iff h).mp hm |>.1 rfl
        · exact key [] _ rfl rfl rfl u hut rfl x (Or.inl ⟨b, hct, hu, hx⟩)
    | excl x =>
      rw [hct] at hcon
      obtain ⟨⟨u, hut, hu⟩, hx | ⟨v, hv'⟩⟩ := hcon
      · exact key [] _ rfl rfl rfl u hut rfl x (Or.inr ⟨hct, hu, hx⟩)
      · by_cases hx : x ∈ items
        · exact key [] _ rfl rfl rfl u hut rfl x (Or.inr ⟨hct, hu, hx⟩)
        · have hvt : v ≠ t := by intro e; rw [e, hct] at hv'; cases hv'
          have hvu : u ≠ v := by intro e; rw [← e, hu] at hv'; cases hv'
          obtain ⟨⟨b1, _⟩, b3, b4⟩ := alone (calls := calls) (s := initial items) (u := v) rfl rfl x (Or.inl ⟨hv', hx⟩)
          refine key [v, v, v] _ rfl b3 ((b4 t (Ne.symm hvt)).trans rfl) u hut ((b4 u hvu).trans rfl) x (Or.inr ⟨hct, hu, ?_⟩)
          show x ∈ ([v, v, v].foldl (step calls) (initial items)).items
          rw [b1 hv']; simp
  · intro hcon sched r hr
    cases hc' : calls t with
    | incl y v =>
      rw [hc'] at hcon
      by_cases ha : ∃ u, u ≠ t ∧ calls u = .incl y true
      · have hy : y ∈ items ∧ ¬ ∃ v, calls v = .excl y :=
          ⟨Decidable.byContradiction fun hx => hcon ⟨ha, Or.inl hx⟩, fun hx => hcon ⟨ha, Or.inr hx⟩⟩
        refine returns_of_settled calls items h t (by rw [hc']; exact fun hx => hx hy.1) ?_ sched r hr
        intro s hi u hp
        rw [hc'] at hp ⊢
        have hx : y ∈ s.items := Decidable.byContradiction hp
        refine fun hx' => hx' ?_
        rcases step_items hi u with he | ⟨x, hc, he⟩ | ⟨x, hc, he⟩
        · rw [he]; exact hx
        · rw [he]; exact List.mem_append.2 (Or.inl hx)
        · rw [he]
          have : y ≠ x := by intro e; subst e; exact hy.2 ⟨u, hc⟩
          exact (List.mem_erase_of_ne this).2 hx
      · refine returns_of_stay calls items h t hv ?_ sched r hr
        intro s hi u hut hp
        rw [hc'] at hp ⊢
        rcases step_items hi u with he | ⟨x, hc, he⟩ | ⟨x, hc, he⟩
        · rw [he]; exact hp
        · rw [he]
          intro hm
          rcases List.mem_append.1 hm with hm | hm
          · exact hp hm
          · have : y = x := List.mem_singleton.1 hm
            subst this
            exact ha ⟨u, hut, hc⟩
        · rw [he]; exact fun hm => hp (List.mem_of_mem_erase hm)
    | excl y =>
      rw [hc'] at hcon
      by_cases ha : ∃ u, u ≠ t ∧ calls u = .excl y
      · have hy : y ∉ items ∧ ¬ ∃ v, calls v = .incl y true :=
          ⟨fun hx => hcon ⟨ha, Or.inl hx⟩, fun hx => hcon ⟨ha, Or.inr hx⟩⟩
        refine returns_of_settled calls items h t (by rw [hc']; exact hy.1) ?_ sched r hr
        intro s hi u hp
        rw [hc'] at hp ⊢
        have hx : y ∉ s.items := hp
        show y ∉ _
        rcases step_items hi u with he | ⟨x, hc, he⟩ | ⟨x, hc, he⟩
        · rw [he]; exact hx
        · rw [he]
          intro hm
          rcases List.mem_append.1 hm with hm | hm
          · exact hx hm
          · have : y = x := List.mem_singleton.1 hm
            subst this
            exact hy.2 ⟨u, hc⟩
        · rw [he]; exact fun hm => hx (List.mem_of_mem_erase hm)
      · refine returns_of_stay calls items h t hv ?_ sched r hr
        intro s hi u hut hp
        rw [hc'] at hp ⊢
        rcases step_items hi u with he | ⟨x, hc, he⟩ | ⟨x, hc, he⟩
        · rw [he]; exact hp
        · rw [he]; exact List.mem_append.2 (Or.inl hp)
        · rw [he]
          have : y ≠ x := by intro e; subst e; exact ha ⟨u, hut, hc⟩
          exact (List.mem_erase_of_ne this).2 hp

/-- Many threads include an item that is there already and that nobody excludes: all return `True`. -/
example : ¬ Contended (fun _ => .incl 7 true) [7] 0 (.incl 7 true) := by
  rintro ⟨_, h | ⟨_, h⟩⟩
  · simp at h
  · cases h

/-- **C181** (violation). Two threads include the same new item: both see that it is missing, one adds it, the other gets `ExistsError`, which is suppressed: it returns `False` although the item is in the pile. Likewise for `exclude`. -/
theorem C181_false_violation :
    ((run (fun _ => .incl 7 true) [1] [0, 1, 0, 0, 1]).phase 1 = .done false ∧ 7 ∈ (run (fun _ => .incl 7 true) [1] [0, 1, 0, 0, 1]).items) ∧
    ((run (fun _ => .excl 1) [1] [0, 1, 0, 0, 1]).phase 1 = .done false ∧ 1 ∉ (run (fun _ => .excl 1) [1] [0, 1, 0, 0, 1]).items) := by decide

/-- Threads 0 to 2 include different items, thread 3 excludes one: all return `True`. -/
def sampleCalls (t : Nat) : Call := if t = 3 then .excl 1 else .incl (10 + t) true

example : let s := run sampleCalls [1, 2] [0, 1, 3, 3, 0, 2, 3, 0, 1, 0, 1, 2, 1, 2, 2]
    (s.phase 0 = .done true ∧ s.phase 1 = .done true ∧ s.phase 2 = .done true ∧ s.phase 3 = .done true) ∧ s.items = [2, 10, 11, 12] ∧ s.order = s.items := by decide

end Verif.PileConc
