import Verif.Model.ExecLoop
import Verif.Props.Processor

set_option linter.unusedSectionVars false
set_option linter.unusedSimpArgs false
set_option linter.unusedVariables false

/-!
# `execute()`, `stop()`, `start()`, `execution_mode`: C251-C253
-/

namespace Verif.ExecLoop

open Verif.Processor (Cfg Obs Entry)

/-! ## Which steps touch what -/

theorem turn_stopped (c : Cfg) (s : Sys) (i : Nat) : (turn c s i).stopped = s.stopped := by
  unfold turn; split <;> rfl

theorem resume_stopped (c : Cfg) (s : Sys) (i : Nat) (l : LPC) : (resume c s i l).stopped = s.stopped := by
  cases l with
  | processing k =>
    simp only [resume]
    split
    · rfl
    · split <;> rfl
  | sleeping => exact turn_stopped c s i
  | returned => rfl
  | raised => rfl

/-- The signal after one step. -/
theorem step_stopped (c : Cfg) (s : Sys) (a : Act) :
    (step c s a).stopped = (if a = .proc .stop then true else if a = .start ∨ a = .execute then false else s.stopped) := by
  cases a with
  | proc a => cases a <;> simp [step]
  | start => simp [step]
  | execute => simp [step, execute, turn_stopped]
  | resume i =>
    simp only [step]
    cases s.loops[i]? with
    | none => simp
    | some l => simp [resume_stopped]
  | cancel i => simp [step]
  | join => simp [step]
  | poll j => simp [step]

/-- No `start()` and no `execute()` begins. -/
def Quiet (as : List Act) : Prop := ∀ a ∈ as, a ≠ .start ∧ a ≠ .execute

/-- Nobody else calls `process()`. -/
def Alone (as : List Act) : Prop := ∀ a ∈ as, a ≠ .proc .process

theorem run_snoc (c : Cfg) (s : Sys) (as : List Act) (a : Act) : run c s (as ++ [a]) = step c (run c s as) a := by
  simp [run]

theorem run_append (c : Cfg) (s : Sys) (as bs : List Act) : run c s (as ++ bs) = run c (run c s as) bs := by
  simp [run]

theorem Quiet.stopped {c : Cfg} {as : List Act} (h : Quiet as) {s : Sys} (hs : s.stopped = true) : (run c s as).stopped = true := by
  induction as generalizing s with
  | nil => exact hs
  | cons a as ih =>
    refine ih (fun b hb => h b (List.mem_cons_of_mem _ hb)) (s := step c s a) ?_
    rw [step_stopped]
    obtain ⟨h1, h2⟩ := h a List.mem_cons_self
    split
    · rfl
    · rw [if_neg (by simp [h1, h2])]; exact hs

/-- C252.  `is_stopped()` answers True exactly when `stop()` was called and neither `start()` nor the beginning of an `execute()` call came after it. -/
theorem C252_exact_partial (c : Cfg) (as : List Act) :
    (run c (init c) as).stopped = true ↔ ∃ l r, as = l ++ .proc .stop :: r ∧ Quiet r := by
  constructor
  · suffices h : ∀ n (as : List Act), as.length = n → (run c (init c) as).stopped = true → ∃ l r, as = l ++ .proc .stop :: r ∧ Quiet r from
      h as.length as rfl
    intro n
    induction n with
    | zero => intro as hl h; rw [List.length_eq_zero_iff] at hl; subst hl; simp [run, init] at h
    | succ n ih =>
      intro as hl h
      rcases List.eq_nil_or_concat as with rfl | ⟨bs, a, rfl⟩
      · simp at hl
      · rw [List.concat_eq_append] at *
        rw [run_snoc, step_stopped] at h
        by_cases h1 : a = .proc .stop
        · exact ⟨bs, [], by rw [h1], fun _ hx => by simp at hx⟩
        · rw [if_neg h1] at h
          by_cases h2 : a = .start ∨ a = .execute
          · rw [if_pos h2] at h; simp at h
          · rw [if_neg h2] at h
            obtain ⟨l, r, e, hq⟩ := ih bs (by simp at hl; omega) h
            refine ⟨l, r ++ [a], by rw [e]; simp, ?_⟩
            intro x hx
            rw [List.mem_append] at hx
            rcases hx with hx | hx
            · exact hq x hx
            · rw [List.mem_singleton] at hx
              subst hx
              exact ⟨fun e => h2 (.inl e), fun e => h2 (.inr e)⟩
  · rintro ⟨l, r, rfl, hq⟩
    have : l ++ Act.proc .stop :: r = (l ++ [.proc .stop]) ++ r := by simp
    rw [this, run_append]
    refine hq.stopped ?_
    rw [run_snoc, step_stopped, if_pos rfl]

/-! ## After `stop()` -/

/-- What an `execute()` call may be doing after `stop()`, given what it did then: the same or a later stage of the same turn. -/
def Later : LPC → LPC → Prop
  | .processing k, l => l = .processing k ∨ l = .sleeping ∨ l = .returned ∨ l = .raised
  | .sleeping, l => l = .sleeping ∨ l = .returned ∨ l = .raised
  | .returned, l => l = .returned
  | .raised, l => l = .raised

theorem Later.refl (l : LPC) : Later l l := by cases l <;> simp [Later]

theorem Later.trans {a b d : LPC} (h1 : Later a b) (h2 : Later b d) : Later a d := by
  cases a with
  | processing k =>
    rcases h1 with rfl | rfl | rfl | rfl
    · exact h2
    · rcases h2 with rfl | rfl | rfl <;> simp [Later]
    · have : d = .returned := h2
      subst this; simp [Later]
    · have : d = .raised := h2
      subst this; simp [Later]
  | sleeping =>
    rcases h1 with rfl | rfl | rfl
    · exact h2
    · have : d = .returned := h2
      subst this; simp [Later]
    · have : d = .raised := h2
      subst this; simp [Later]
  | returned => have : b = .returned := h1; subst this; exact h2
  | raised => have : b = .raised := h1; subst this; exact h2

/-- The `execute()` calls of `t` are those of `s`, each at the same or a later stage of its turn. -/
def Winding (s t : Sys) : Prop := t.loops.length = s.loops.length ∧ ∀ (i : Nat) (l : LPC), s.loops[i]? = some l → ∃ l', t.loops[i]? = some l' ∧ Later l l'

theorem Winding.refl (s : Sys) : Winding s s := ⟨rfl, fun i l h => ⟨l, h, Later.refl l⟩⟩

theorem Winding.trans {r s t : Sys} (h1 : Winding r s) (h2 : Winding s t) : Winding r t := by
  refine ⟨h2.1.trans h1.1, fun i l hl => ?_⟩
  obtain ⟨l1, e1, k1⟩ := h1.2 i l hl
  obtain ⟨l2, e2, k2⟩ := h2.2 i l1 e1
  exact ⟨l2, e2, k1.trans k2⟩

theorem Winding.same {s t : Sys} (h : t.loops = s.loops) : Winding s t := by
  unfold Winding; rw [h]; exact Winding.refl s

theorem Winding.set {s t : Sys} {i : Nat} {l l' : LPC} (hl : s.loops[i]? = some l) (ht : t.loops = s.loops.set i l') (hk : Later l l') : Winding s t := by
  refine ⟨by rw [ht, List.length_set], fun j m hm => ?_⟩
  rw [ht, List.getElem?_set]
  by_cases hij : i = j
  · subst hij
    rw [hl] at hm
    cases hm
    have := (List.getElem?_eq_some_iff.mp hl).1
    exact ⟨l', by simp [this], hk⟩
  · exact ⟨m, by rw [if_neg hij]; exact hm, Later.refl m⟩

theorem resume_winding {c : Cfg} {s : Sys} (hs : s.stopped = true) {i : Nat} {l : LPC} (hl : s.loops[i]? = some l) : Winding s (resume c s i l) := by
  cases l with
  | processing k =>
    simp only [resume]
    split
    · exact Winding.set hl rfl (by simp [Later])
    · split
      · exact Winding.set hl rfl (by simp [Later])
      · exact Winding.refl s
  | sleeping =>
    simp only [resume, turn, hs, if_true]
    exact Winding.set hl rfl (by simp [Later])
  | returned => exact Winding.refl s
  | raised => exact Winding.refl s

theorem step_winding {c : Cfg} {s : Sys} (hs : s.stopped = true) {a : Act} (ha : a ≠ .execute) : Winding s (step c s a) := by
  cases a with
  | proc a => exact Winding.same rfl
  | start => exact Winding.same rfl
  | execute => exact absurd rfl ha
  | resume i =>
    simp only [step]
    cases hl : s.loops[i]? with
    | none => exact Winding.refl s
    | some l => exact resume_winding hs hl
  | cancel i =>
    cases hl : s.loops[i]? with
    | none =>
      refine Winding.same ?_
      show s.loops.modify i cancelled = s.loops
      refine List.ext_getElem? fun j => ?_
      rw [List.getElem?_modify]
      by_cases hij : i = j
      · subst hij; rw [hl]; rfl
      · simp [hij]
    | some l =>
      refine Winding.set hl (l' := cancelled l) ?_ ?_
      · show s.loops.modify i cancelled = _
        refine List.ext_getElem? fun j => ?_
        rw [List.getElem?_modify, List.getElem?_set]
        by_cases hij : i = j
        · subst hij; rw [hl]; simp [(List.getElem?_eq_some_iff.mp hl).1]
        · simp [hij]
      · cases l <;> simp [cancelled, Later]
  | join => exact Winding.same rfl
  | poll j => exact Winding.same rfl

theorem run_winding {c : Cfg} {as : List Act} (hq : Quiet as) {s : Sys} (hs : s.stopped = true) : Winding s (run c s as) := by
  induction as generalizing s with
  | nil => exact Winding.refl s
  | cons a as ih =>
    have h1 : Quiet [a] := fun b hb => hq b (by simp at hb; simp [hb])
    have hs' : (step c s a).stopped = true := h1.stopped (c := c) hs
    exact (step_winding hs (hq a List.mem_cons_self).2).trans (ih (fun b hb => hq b (List.mem_cons_of_mem _ hb)) hs')

/-- C251.  After `stop()`, as long as neither `start()` nor `execute()` is called again, in every schedule: each `execute()` call remains in the turn it was in
(it begins no further `process()` call), and no `execute()` call is added. -/
theorem C251_no_further_batch (c : Cfg) (s : Sys) (as : List Act) (hq : Quiet as) :
    Winding s (run c (step c s (.proc .stop)) as) := by
  have hs : (step c s (.proc .stop)).stopped = true := by rw [step_stopped, if_pos rfl]
  exact (Winding.same (s := s) (t := step c s (.proc .stop)) rfl).trans (run_winding hq hs)

theorem sleeping_returns {c : Cfg} {as : List Act} {i : Nat} (hq : Quiet as) (hc : Act.cancel i ∉ as) (hr : Act.resume i ∈ as) {s : Sys} (hs : s.stopped = true)
    (hi : s.loops[i]? = some .sleeping) : (run c s as).loops[i]? = some .returned := by
  induction as generalizing s with
  | nil => simp at hr
  | cons a as ih =>
    have hq' : Quiet as := fun b hb => hq b (List.mem_cons_of_mem _ hb)
    have h1 : Quiet [a] := fun b hb => hq b (by simp at hb; simp [hb])
    have hs' : (step c s a).stopped = true := h1.stopped (c := c) hs
    by_cases ha : a = .resume i
    · subst ha
      have hret : (step c s (.resume i)).loops[i]? = some .returned := by
        simp only [step, hi, Option.map_some, Option.getD_some, resume, turn, hs, if_true]
        simp [(List.getElem?_eq_some_iff.mp hi).1]
      obtain ⟨l', e, hk⟩ := (run_winding (c := c) hq' hs').2 i _ hret
      have : l' = .returned := hk
      rw [this] at e
      exact e
    · have hr' : Act.resume i ∈ as := by
        rcases List.mem_cons.mp hr with e | h
        · exact absurd e.symm ha
        · exact h
      refine ih hq' (fun h => hc (List.mem_cons_of_mem _ h)) hr' hs' ?_
      cases a with
      | proc a => exact hi
      | start => exact hi
      | execute => exact absurd rfl (hq .execute List.mem_cons_self).2
      | resume j =>
        have hji : j ≠ i := fun e => ha (by rw [e])
        simp only [step]
        cases hl : s.loops[j]? with
        | none => exact hi
        | some l =>
          simp only [Option.map_some, Option.getD_some]
          cases l with
          | processing k =>
            simp only [resume]
            split
            · simp [List.getElem?_set, hji, hi]
            · split
              · simp [List.getElem?_set, hji, hi]
              · exact hi
          | sleeping => simp [resume, turn, hs, List.getElem?_set, hji, hi]
          | returned => exact hi
          | raised => exact hi
      | cancel j =>
        have hji : j ≠ i := fun e => hc (by rw [e]; exact List.mem_cons_self)
        show (s.loops.modify j cancelled)[i]? = _
        rw [List.getElem?_modify]
        simp [hji, hi]
      | join => exact hi
      | poll j => exact hi

/-- C251.  … and it ends: an `execute()` call that is in its pause when `stop()` is called, or whose batch is over, returns the next time it runs; whatever else happens
(but a `start()`, an `execute()` or the cancellation of that call). -/
theorem C251_returns (c : Cfg) (s : Sys) (as : List Act) (i : Nat) (hq : Quiet as) (hc : Act.cancel i ∉ as)
    (h : s.loops[i]? = some .sleeping ∧ Act.resume i ∈ as ∨
      ∃ k cl, s.loops[i]? = some (.processing k) ∧ s.proc.calls[k]? = some cl ∧ cl.pc = .done ∧ ∃ bs, as = .resume i :: bs ∧ Act.resume i ∈ bs) :
    (run c (step c s (.proc .stop)) as).loops[i]? = some .returned := by
  have hs : (step c s (.proc .stop)).stopped = true := by rw [step_stopped, if_pos rfl]
  rcases h with ⟨h1, h2⟩ | ⟨k, cl, h1, h2, h3, bs, rfl, h4⟩
  · exact sleeping_returns hq hc h2 hs h1
  · have hq' : Quiet bs := fun b hb => hq b (List.mem_cons_of_mem _ hb)
    have hcalls : (step c s (.proc .stop)).proc.calls = s.proc.calls := rfl
    have e1 : (step c s (.proc .stop)).loops[i]? = some (.processing k) := h1
    show (run c (step c (step c s (.proc .stop)) (.resume i)) bs).loops[i]? = _
    refine sleeping_returns hq' (fun h => hc (List.mem_cons_of_mem _ h)) h4 ?_ ?_
    · rw [step_stopped]; simp [hs]
    · have e2 : (step c s (.proc .stop)).proc.calls[k]? = some cl := h2
      have e3 : step c (step c s (.proc .stop)) (.resume i) = resume c (step c s (.proc .stop)) i (.processing k) := by
        show (((step c s (.proc .stop)).loops[i]?).map _).getD _ = _
        rw [e1]; rfl
      have e4 : (Processor.PC.done == Processor.PC.done) = true := rfl
      rw [e3]
      simp only [resume, e2, Option.any_some, h3, e4, if_true]
      rw [List.getElem?_set_self (List.getElem?_eq_some_iff.mp e1).1]

/-! ## Which events are started after `stop()` -/

theorem advance_calls_length (c : Cfg) (s : Processor.Sys) (i : Nat) (cl : Processor.Call) (f : Bool) (p : Processor.Perm) :
    (Processor.advance c s i cl f p).calls.length = s.calls.length := by
  unfold Processor.advance
  cases cl.pc <;> simp only
  · split <;> simp [Processor.setCall]
  · split
    · rfl
    · split <;> simp [Processor.setCall, Processor.Sys.obs]
  · cases p <;> simp [Processor.setCall, Processor.Sys.obs, Processor.deny]
    split <;> simp
  · simp [Processor.setCall, Processor.Sys.obs]
  · simp [Processor.setCall, Processor.Sys.obs]
  · simp [Processor.setCall, Processor.Sys.obs]
  · split <;> simp [Processor.setCall, Processor.Sys.obs]

/-- What a processor step adds to the log: starts only by `process()` calls made before. -/
theorem proc_step_log (c : Cfg) (s : Processor.Sys) (a : Processor.Act) :
    ∃ l, (Processor.step c s a).log = s.log ++ l ∧ ∀ i e, Obs.start i e ∈ l → i < s.calls.length := by
  cases a with
  | enqueue id prio created =>
    simp only [Processor.step, Processor.enqueue]
    split
    · exact ⟨[.full id], rfl, by simp⟩
    · split
      · exact ⟨[], by simp, by simp⟩
      · exact ⟨[.badPriority id], rfl, by simp⟩
      · split
        · exact ⟨[], by simp, by simp⟩
        · exact ⟨[.missing id], rfl, by simp⟩
  | enqPut k =>
    simp only [Processor.step, Processor.enqPut]
    split
    · exact ⟨[], by simp, by simp⟩
    · exact ⟨_, rfl, by simp⟩
  | process => exact ⟨[], by simp [Processor.step], by simp⟩
  | go i f p =>
    simp only [Processor.step]
    split
    · exact ⟨[], by simp, by simp⟩
    · next cl hi =>
      have hlt : i < s.calls.length := (List.getElem?_eq_some_iff.mp hi).1
      unfold Processor.advance
      cases cl.pc <;> simp only
      · split <;> exact ⟨[], by simp [Processor.setCall], by simp⟩
      · split
        · exact ⟨[], by simp, by simp⟩
        · split
          · exact ⟨_, rfl, by simp⟩
          · refine ⟨[_, _], by simp [Processor.setCall, Processor.Sys.obs]; exact ⟨rfl, rfl⟩, by simp⟩
      · cases p
        · exact ⟨_, rfl, by simp⟩
        · simp only [Processor.deny]
          split
          · refine ⟨[_, _], by simp [Processor.setCall, Processor.Sys.obs]; exact ⟨rfl, rfl⟩, by simp⟩
          · exact ⟨_, rfl, by simp⟩
        · exact ⟨[], by simp [Processor.setCall], by simp⟩
      · refine ⟨_, rfl, ?_⟩
        intro j e' h
        simp at h
        rw [h.1]
        exact hlt
      · exact ⟨_, rfl, by simp⟩
      · exact ⟨_, rfl, by simp⟩
      · split
        · exact ⟨_, rfl, by simp⟩
        · exact ⟨[], by simp [Processor.setCall], by simp⟩
      · exact ⟨[], by simp, by simp⟩
      · exact ⟨[], by simp, by simp⟩
  | cancel i =>
    simp only [Processor.step]
    split
    · exact ⟨[], by simp, by simp⟩
    · split
      · exact ⟨[], by simp, by simp⟩
      · exact ⟨[], by simp [Processor.setCall], by simp⟩
  | stop => exact ⟨[.stop], rfl, by simp⟩
  | forget id => exact ⟨[.forget id], rfl, by simp⟩

theorem proc_step_calls (c : Cfg) (s : Processor.Sys) (a : Processor.Act) (ha : a ≠ .process) : (Processor.step c s a).calls.length = s.calls.length := by
  cases a with
  | enqueue id prio created =>
    simp only [Processor.step, Processor.enqueue]
    split
    · rfl
    · split
      · rfl
      · rfl
      · split <;> rfl
  | enqPut k => simp only [Processor.step, Processor.enqPut]; split <;> rfl
  | process => exact absurd rfl ha
  | go i f p =>
    simp only [Processor.step]
    split
    · rfl
    · exact advance_calls_length ..
  | cancel i =>
    simp only [Processor.step]
    split
    · rfl
    · split
      · rfl
      · simp [Processor.setCall]
  | stop => rfl
  | forget id => rfl

/-- One step under the stop signal makes no `process()` call. -/
theorem stopped_step {c : Cfg} {s : Sys} (hs : s.stopped = true) {a : Act} (h1 : a ≠ .execute) (h2 : a ≠ .proc .process) :
    (step c s a).proc.calls.length = s.proc.calls.length ∧
      ∃ l, (step c s a).proc.log = s.proc.log ++ l ∧ ∀ i e, Obs.start i e ∈ l → i < s.proc.calls.length := by
  have hsame : ∀ t : Sys, t.proc = s.proc → t.proc.calls.length = s.proc.calls.length ∧
      ∃ l, t.proc.log = s.proc.log ++ l ∧ ∀ i e, Obs.start i e ∈ l → i < s.proc.calls.length :=
    fun t e => by rw [e]; exact ⟨rfl, [], by simp, by simp⟩
  cases a with
  | proc a => exact ⟨proc_step_calls c s.proc a (fun e => h2 (by rw [e])), proc_step_log c s.proc a⟩
  | start => exact hsame _ rfl
  | execute => exact absurd rfl h1
  | resume i =>
    refine hsame _ ?_
    simp only [step]
    cases hl : s.loops[i]? with
    | none => rfl
    | some l =>
      simp only [Option.map_some, Option.getD_some]
      cases l with
      | processing k =>
        simp only [resume]
        split
        · rfl
        · split <;> rfl
      | sleeping => simp [resume, turn, hs]
      | returned => rfl
      | raised => rfl
  | cancel i => exact hsame _ rfl
  | join => exact hsame _ rfl
  | poll j => exact hsame _ rfl

/-- C251.  … and if nobody else calls `process()` either: every event started after `stop()` belongs to a `process()` call that was made before it. -/
theorem C251_events (c : Cfg) (s : Sys) (as : List Act) (hq : Quiet as) (ha : Alone as) :
    ∃ l, (run c (step c s (.proc .stop)) as).proc.log = s.proc.log ++ .stop :: l ∧ ∀ i e, Obs.start i e ∈ l → i < s.proc.calls.length := by
  suffices h : ∀ (as : List Act) (t : Sys), Quiet as → Alone as → t.stopped = true → t.proc.calls.length = s.proc.calls.length →
      ∃ l, (run c t as).proc.log = t.proc.log ++ l ∧ ∀ i e, Obs.start i e ∈ l → i < s.proc.calls.length by
    obtain ⟨l, e, h⟩ := h as (step c s (.proc .stop)) hq ha (by rw [step_stopped, if_pos rfl]) rfl
    exact ⟨l, by rw [e]; simp [step, Processor.step, Processor.Sys.obs], h⟩
  intro as
  induction as with
  | nil => intro t _ _ _ _; exact ⟨[], by simp [run], by simp⟩
  | cons a as ih =>
    intro t hq ha ht hl
    obtain ⟨g1, l1, g2, g3⟩ := stopped_step (c := c) ht (hq a List.mem_cons_self).2 (ha a List.mem_cons_self)
    have h1 : Quiet [a] := fun b hb => hq b (by simp at hb; simp [hb])
    obtain ⟨l2, e2, k2⟩ := ih (step c t a) (fun b hb => hq b (List.mem_cons_of_mem _ hb)) (fun b hb => ha b (List.mem_cons_of_mem _ hb))
      (h1.stopped (c := c) ht) (by rw [g1, hl])
    refine ⟨l1 ++ l2, ?_, ?_⟩
    · show (run c (step c t a) as).proc.log = _
      rw [e2, g2, List.append_assoc]
    · intro i e he
      rcases List.mem_append.mp he with h | h
      · rw [← hl]; exact g3 i e h
      · exact k2 i e h

/-- A schedule of one `execute()` call with two queued events: the batch takes the first, `stop()` comes, the batch goes on with the second, the loop pauses and returns. -/
def stopEx : List Act :=
  [.proc (.enqueue 1 (some (.finite 1)) none), .proc (.enqPut 0), .proc (.enqueue 2 (some (.finite 2)) none), .proc (.enqPut 0),
   .execute, .proc (.go 0 true .grant), .proc (.go 0 true .grant)]

def stopEx2 : List Act :=
  [.proc (.go 0 true .grant), .proc (.go 0 true .grant), .proc (.go 0 true .grant), .proc (.go 0 true .grant), .proc (.go 0 true .grant), .proc (.go 0 true .grant),
   .proc (.go 0 true .grant), .proc (.go 0 true .grant), .resume 0, .resume 0]

/-- The hypotheses of C251 are met: two events are started after `stop()`, then `execute()` returns. -/
example : (run ⟨5, 10, 10⟩ (init ⟨5, 10, 10⟩) stopEx).loops = [.processing 0] ∧ Quiet stopEx2 ∧ Alone stopEx2 ∧
    (run ⟨5, 10, 10⟩ (init ⟨5, 10, 10⟩) (stopEx ++ .proc .stop :: stopEx2)).loops = [.returned] ∧
    Obs.start 0 (2, 2) ∈ (run ⟨5, 10, 10⟩ (init ⟨5, 10, 10⟩) (stopEx ++ .proc .stop :: stopEx2)).proc.log :=
  ⟨by decide +kernel, fun a h => by revert a; decide, fun a h => by revert a; decide, by decide +kernel, by decide +kernel⟩

/-- C252 fails: `stop()` is undone by an `execute()` call that begins after it (it need not have been made after it: a task group begins it later), without any `start()` by the
caller; and the `execute()` call that was to end goes on too. -/
theorem C252_violation : ∃ l r, Act.start ∉ l ++ .proc .stop :: r ∧ (run ⟨5, 10, 10⟩ (init ⟨5, 10, 10⟩) (l ++ .proc .stop :: r)).stopped = false ∧
    (run ⟨5, 10, 10⟩ (init ⟨5, 10, 10⟩) (l ++ .proc .stop :: r)).loops = [.processing 2, .processing 1] :=
  ⟨[.execute, .proc (.go 0 true .grant), .proc (.go 0 true .grant), .resume 0], [.execute, .resume 0], by decide, by decide +kernel, by decide +kernel⟩

/-- C252.  What remains true: with no `execute()` beginning and no `start()` after it, the signal stays set (`C252_exact_partial`) and no `execute()` call begins a batch. -/
theorem C252_holds_partial (c : Cfg) (l r : List Act) (hq : Quiet r) :
    (run c (init c) (l ++ .proc .stop :: r)).stopped = true ∧ Winding (run c (init c) l) (run c (init c) (l ++ .proc .stop :: r)) := by
  refine ⟨(C252_exact_partial c _).mpr ⟨l, r, rfl, hq⟩, ?_⟩
  rw [run_append]
  exact C251_no_further_batch c (run c (init c) l) r hq

/-! ## `execution_mode` -/

/-- An `execute()` call is under way. -/
def running : LPC → Bool
  | .processing _ => true
  | .sleeping => true
  | .returned => false
  | .raised => false

/-- C253 fails: `execution_mode` stays True when the `execute()` call has ended with an exception … -/
theorem C253_raised_violation : ∃ as, (run ⟨5, 10, 10⟩ (init ⟨5, 10, 10⟩) as).mode = true ∧
    (run ⟨5, 10, 10⟩ (init ⟨5, 10, 10⟩) as).loops.any running = false :=
  ⟨[.execute, .proc (.cancel 0), .resume 0], by decide +kernel, by decide +kernel⟩

/-- … and is False while one runs, if another one has returned meanwhile. -/
theorem C253_two_violation : ∃ as, (run ⟨5, 10, 10⟩ (init ⟨5, 10, 10⟩) as).mode = false ∧
    (run ⟨5, 10, 10⟩ (init ⟨5, 10, 10⟩) as).loops.any running = true :=
  ⟨[.execute, .execute, .proc (.go 0 true .grant), .proc (.go 0 true .grant), .resume 0, .proc .stop, .resume 0], by decide +kernel, by decide +kernel⟩

/-- Every `execute()` call begins when no other one is under way. -/
def OneAtATime (c : Cfg) (as : List Act) : Prop := ∀ l r, as = l ++ .execute :: r → (run c (init c) l).loops.any running = false

/-- The last `execute()` call has not returned normally. -/
def LastOpen (s : Sys) : Prop := ∃ l, s.loops.getLast? = some l ∧ l ≠ .returned

structure ModeInv (s : Sys) : Prop where
  old : ∀ (i : Nat) (l : LPC), s.loops[i]? = some l → running l = true → i + 1 = s.loops.length
  mode : s.mode = true ↔ LastOpen s

theorem getLast?_set_last {α : Type} (l : List α) (i : Nat) (x : α) (h : i + 1 = l.length) : (l.set i x).getLast? = some x := by
  rw [List.getLast?_eq_getElem?, List.length_set]
  have : l.length - 1 = i := by omega
  rw [this, List.getElem?_set_self (by omega)]

theorem ModeInv.loops {s t : Sys} (h : ModeInv s) (hl : t.loops = s.loops) (hm : t.mode = s.mode) : ModeInv t := by
  constructor
  · rw [hl]; exact h.old
  · rw [hm]; simp only [LastOpen, hl]; exact h.mode

/-- A running call moves on to another open state. -/
theorem ModeInv.move {s t : Sys} (h : ModeInv s) {i : Nat} {l l' : LPC} (hi : s.loops[i]? = some l) (hr : running l = true) (hl : t.loops = s.loops.set i l')
    (hn : l' ≠ .returned) (hm : t.mode = s.mode) : ModeInv t := by
  have hlast := h.old i l hi hr
  constructor
  · intro j m hj hmr
    rw [hl, List.getElem?_set] at hj
    rw [hl, List.length_set]
    by_cases hij : i = j
    · subst hij; exact hlast
    · rw [if_neg hij] at hj; exact h.old j m hj hmr
  · rw [hm, h.mode]
    constructor
    · intro _; exact ⟨l', by rw [hl, getLast?_set_last _ _ _ hlast], hn⟩
    · intro _
      refine ⟨l, ?_, ?_⟩
      · rw [List.getLast?_eq_getElem?]
        have : s.loops.length - 1 = i := by omega
        rw [this]; exact hi
      · rintro rfl; simp [running] at hr

theorem ModeInv.ret {s t : Sys} (h : ModeInv s) {i : Nat} {l : LPC} (hi : s.loops[i]? = some l) (hr : running l = true) (hl : t.loops = s.loops.set i .returned)
    (hm : t.mode = false) : ModeInv t := by
  have hlast := h.old i l hi hr
  constructor
  · intro j m hj hmr
    rw [hl, List.getElem?_set] at hj
    rw [hl, List.length_set]
    by_cases hij : i = j
    · subst hij; exact hlast
    · rw [if_neg hij] at hj; exact h.old j m hj hmr
  · rw [hm]
    constructor
    · intro hf; simp at hf
    · rintro ⟨x, hx, hn⟩
      rw [hl, getLast?_set_last _ _ _ hlast] at hx
      cases hx
      exact absurd rfl hn

theorem ModeInv.resume {c : Cfg} {s : Sys} (h : ModeInv s) {i : Nat} {l : LPC} (hi : s.loops[i]? = some l) : ModeInv (resume c s i l) := by
  cases l with
  | processing k =>
    simp only [ExecLoop.resume]
    split
    · exact h.move hi rfl rfl (by simp) rfl
    · split
      · exact h.move hi rfl rfl (by simp) rfl
      · exact h
  | sleeping =>
    simp only [ExecLoop.resume, turn]
    split
    · exact h.ret hi rfl rfl rfl
    · exact h.move hi rfl rfl (by simp) rfl
  | returned => exact h
  | raised => exact h

theorem ModeInv.step {c : Cfg} {s : Sys} (h : ModeInv s) (a : Act) (ha : a = .execute → s.loops.any running = false) : ModeInv (step c s a) := by
  cases a with
  | proc a => exact h.loops rfl rfl
  | start => exact h.loops rfl rfl
  | execute =>
    have hn := ha rfl
    have hloops : (ExecLoop.step c s .execute).loops = s.loops ++ [.processing s.proc.calls.length] := by
      simp [ExecLoop.step, execute, turn, List.set_append]
    have hmode : (ExecLoop.step c s .execute).mode = true := by simp [ExecLoop.step, execute, turn]
    constructor
    · intro j m hj hmr
      rw [hloops] at hj ⊢
      rw [List.getElem?_append] at hj
      split at hj
      · rw [List.any_eq_false] at hn
        exact absurd hmr (hn m (List.mem_of_getElem? hj))
      · next hlt =>
        have := (List.getElem?_eq_some_iff.mp hj).1
        simp at this ⊢
        omega
    · rw [hmode]
      refine ⟨fun _ => ⟨.processing s.proc.calls.length, by rw [hloops]; simp, by simp⟩, fun _ => rfl⟩
  | resume i =>
    simp only [ExecLoop.step]
    cases hl : s.loops[i]? with
    | none => exact h
    | some l => exact h.resume hl
  | cancel i =>
    cases hl : s.loops[i]? with
    | none =>
      refine h.loops ?_ rfl
      show s.loops.modify i cancelled = s.loops
      refine List.ext_getElem? fun j => ?_
      rw [List.getElem?_modify]
      by_cases hij : i = j
      · subst hij; rw [hl]; rfl
      · simp [hij]
    | some l =>
      have hset : s.loops.modify i cancelled = s.loops.set i (cancelled l) := by
        refine List.ext_getElem? fun j => ?_
        rw [List.getElem?_modify, List.getElem?_set]
        by_cases hij : i = j
        · subst hij; rw [hl]; simp [(List.getElem?_eq_some_iff.mp hl).1]
        · simp [hij]
      have hself : ∀ x, s.loops[i]? = some x → s.loops.set i x = s.loops := by
        intro x hx
        refine List.ext_getElem? fun j => ?_
        rw [List.getElem?_set]
        by_cases hij : i = j
        · subst hij; rw [hx]; simp [(List.getElem?_eq_some_iff.mp hx).1]
        · simp [hij]
      cases l with
      | processing k => exact h.move hl rfl hset (by simp [cancelled]) rfl
      | sleeping => exact h.move hl rfl hset (by simp [cancelled]) rfl
      | returned => exact h.loops (hset.trans (hself _ hl)) rfl
      | raised => exact h.loops (hset.trans (hself _ hl)) rfl
  | join => exact h.loops rfl rfl
  | poll j => exact h.loops rfl rfl

theorem modeInv_run {c : Cfg} (as : List Act) (h : OneAtATime c as) : ModeInv (run c (init c) as) := by
  suffices hs : ∀ n (as : List Act), as.length = n → OneAtATime c as → ModeInv (run c (init c) as) from hs as.length as rfl h
  intro n
  induction n with
  | zero =>
    intro as hl _
    rw [List.length_eq_zero_iff] at hl
    subst hl
    exact ⟨by intro i l h; simp [run, init] at h, by simp [run, init, LastOpen]⟩
  | succ n ih =>
    intro as hl hone
    rcases List.eq_nil_or_concat as with rfl | ⟨bs, a, rfl⟩
    · simp at hl
    · rw [List.concat_eq_append] at *
      rw [run_snoc]
      refine (ih bs (by simp at hl; omega) ?_).step a ?_
      · intro l r e
        exact hone l (r ++ [a]) (by rw [e]; simp)
      · intro e
        exact hone bs [] (by rw [e])

theorem turn_loops (c : Cfg) (s : Sys) (i j : Nat) (h : (turn c s i).loops[j]? = some .raised) : s.loops[j]? = some .raised ∧ i ≠ j := by
  simp only [turn] at h
  by_cases hij : i = j
  · subst hij
    split at h <;> rw [List.getElem?_set] at h <;> simp at h
  · split at h <;> rw [List.getElem?_set, if_neg hij] at h <;> exact ⟨h, hij⟩

/-- C253, when an `execute()` call ends with an exception: it was cancelled in its sleep, or the `process()` call it was in failed. -/
theorem C253_raises_partial (c : Cfg) (as : List Act) (a : Act) (i : Nat) (hn : (run c (init c) as).loops[i]? ≠ some .raised)
    (hr : (run c (init c) (as ++ [a])).loops[i]? = some .raised) :
    (a = .cancel i ∧ (run c (init c) as).loops[i]? = some .sleeping) ∨
    (a = .resume i ∧ ∃ k cl, (run c (init c) as).loops[i]? = some (.processing k) ∧ (run c (init c) as).proc.calls[k]? = some cl ∧ cl.pc = .failed) := by
  rw [run_snoc] at hr
  generalize run c (init c) as = s at *
  cases a with
  | proc a => exact absurd hr hn
  | start => exact absurd hr hn
  | join => exact absurd hr hn
  | poll j => exact absurd hr hn
  | execute =>
    have h := turn_loops c _ _ _ hr
    have h1 : (s.loops ++ [LPC.sleeping])[i]? = some .raised := h.1
    rw [List.getElem?_append] at h1
    split at h1
    · exact absurd h1 hn
    · have := List.mem_of_getElem? h1
      simp at this
  | cancel j =>
    have h : (s.loops.modify j cancelled)[i]? = some .raised := hr
    rw [List.getElem?_modify] at h
    by_cases hij : j = i
    · subst hij
      left
      refine ⟨rfl, ?_⟩
      cases hl : s.loops[j]? with
      | none => rw [hl] at h; simp at h
      | some l =>
        rw [hl] at h hn
        cases l with
        | sleeping => rfl
        | processing k => simp [cancelled] at h
        | returned => simp [cancelled] at h
        | raised => exact absurd rfl hn
    · simp [hij] at h
      exact absurd h hn
  | resume j =>
    have h : (((s.loops[j]?).map (ExecLoop.resume c s j)).getD s).loops[i]? = some .raised := hr
    cases hl : s.loops[j]? with
    | none => rw [hl] at h; exact absurd h hn
    | some l =>
      rw [hl] at h
      have h' : (ExecLoop.resume c s j l).loops[i]? = some .raised := h
      cases l with
      | sleeping => exact absurd (turn_loops c s j i h').1 hn
      | returned => exact absurd h' hn
      | raised => exact absurd h' hn
      | processing k =>
        simp only [ExecLoop.resume] at h'
        by_cases hij : j = i
        · subst hij
          right
          refine ⟨rfl, k, ?_⟩
          split at h'
          · rw [List.getElem?_set] at h'; simp at h'
          · split at h'
            · next hf =>
              rw [Option.any_eq_true] at hf
              obtain ⟨cl, h1, h2⟩ := hf
              exact ⟨cl, hl, h1, by simpa using h2⟩
            · exact absurd h' hn
        · split at h'
          · rw [List.getElem?_set, if_neg hij] at h'; exact absurd h' hn
          · split at h'
            · rw [List.getElem?_set, if_neg hij] at h'; exact absurd h' hn
            · exact absurd h' hn

/-- C253.  What holds if no two `execute()` calls overlap: `execution_mode` is True exactly when the last `execute()` call has not returned normally; so while none has ended
with an exception it tells exactly whether one is under way. -/
theorem C253_exact_partial (c : Cfg) (as : List Act) (h : OneAtATime c as) :
    ((run c (init c) as).mode = true ↔ LastOpen (run c (init c) as)) ∧
    (LPC.raised ∉ (run c (init c) as).loops → ((run c (init c) as).mode = true ↔ (run c (init c) as).loops.any running = true)) := by
  have hinv := modeInv_run as h
  refine ⟨hinv.mode, fun hr => ?_⟩
  rw [hinv.mode, List.any_eq_true]
  constructor
  · rintro ⟨l, hl, hn⟩
    have hmem := List.mem_of_getLast? hl
    refine ⟨l, hmem, ?_⟩
    cases l with
    | processing k => rfl
    | sleeping => rfl
    | returned => exact absurd rfl hn
    | raised => exact absurd hmem hr
  · rintro ⟨l, hl, hrun⟩
    obtain ⟨i, hi, e⟩ := List.getElem_of_mem hl
    have hi' : (run c (init c) as).loops[i]? = some l := by rw [List.getElem?_eq_getElem hi, e]
    have := hinv.old i l hi' hrun
    refine ⟨l, ?_, by rintro rfl; simp [running] at hrun⟩
    rw [List.getLast?_eq_getElem?, show (run c (init c) as).loops.length - 1 = i by omega]
    exact hi'

/-- The hypothesis is met by a run with two `execute()` calls one after the other. -/
example : OneAtATime ⟨5, 10, 10⟩ [.execute, .proc (.go 0 true .grant), .proc (.go 0 true .grant), .resume 0, .proc .stop, .resume 0, .execute] ∧
    (run ⟨5, 10, 10⟩ (init ⟨5, 10, 10⟩)
      [.execute, .proc (.go 0 true .grant), .proc (.go 0 true .grant), .resume 0, .proc .stop, .resume 0, .execute]).loops = [.returned, .processing 1] := by
  refine ⟨?_, by decide +kernel⟩
  intro l r e
  have hlen := congrArg List.length e
  simp at hlen
  have hl : l = ([.execute, .proc (.go 0 true .grant), .proc (.go 0 true .grant), .resume 0, .proc .stop, .resume 0, .execute] : List Act).take l.length := by
    rw [e]; simp
  have hx : ([.execute, .proc (.go 0 true .grant), .proc (.go 0 true .grant), .resume 0, .proc .stop, .resume 0, .execute] : List Act)[l.length]? = some .execute := by
    rw [e]; simp
  have hlt : l.length < 7 := by omega
  generalize l.length = n at hl hx hlt
  subst hl
  match n, hx, hlt with
  | 0, _, _ => decide +kernel
  | 6, _, _ => decide +kernel

end Verif.ExecLoop
