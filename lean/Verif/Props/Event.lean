import Verif.Model.Event

/-!
# Event: C21–C25, C89–C91

Specification vocabulary: projections of the observation log (`starts`, `finishes`, `Returned`), the documented outcome table
(`Documented`), "contains" for exception groups (`Under`).
-/

set_option linter.unusedSectionVars false
set_option linter.unusedSimpArgs false

namespace Verif.Event

variable {τ ε α : Type} [DecidableEq τ]

/-! ### C21, C22 -/

/-- The call that started the body, for every start of the body, oldest first. -/
def startOf : Obs τ ε α → Option τ
  | .start t => some t
  | _ => none

/-- The end of the body, if the observation is one. -/
def finishOf : Obs τ ε α → Option (τ × Outcome ε α)
  | .finish t o => some (t, o)
  | _ => none

def starts (l : List (Obs τ ε α)) : List τ := l.filterMap startOf
def finishes (l : List (Obs τ ε α)) : List (τ × Outcome ε α) := l.filterMap finishOf

@[simp] theorem starts_append (l m : List (Obs τ ε α)) : starts (l ++ m) = starts l ++ starts m := by simp [starts]
@[simp] theorem finishes_append (l m : List (Obs τ ε α)) : finishes (l ++ m) = finishes l ++ finishes m := by simp [finishes]
@[simp] theorem starts_exit (t : τ) (x : Exit ε) : starts [(.exit t x : Obs τ ε α)] = [] := rfl
@[simp] theorem finishes_exit (t : τ) (x : Exit ε) : finishes [(.exit t x : Obs τ ε α)] = [] := rfl
@[simp] theorem starts_start (t : τ) : starts [(.start t : Obs τ ε α)] = [t] := rfl
@[simp] theorem finishes_start (t : τ) : finishes [(.start t : Obs τ ε α)] = [] := rfl
@[simp] theorem starts_fin (t : τ) (o : Outcome ε α) (x : Exit ε) : starts [(.finish t o : Obs τ ε α), .exit t x] = [] := rfl
@[simp] theorem finishes_fin (t : τ) (o : Outcome ε α) (x : Exit ε) :
    finishes [(.finish t o : Obs τ ε α), .exit t x] = [(t, o)] := rfl

/-- No call is inside the body. -/
def NoBody (s : Sys τ ε α) : Prop := ∀ t st, s.calls.get? t ≠ some (.body st)

/-- Life of an event: not started, one call in the body, or ended. -/
inductive Phase (heap : ε → ExcObj ε) (s : Sys τ ε α) : Prop where
  | fresh (h1 : s.exec = {}) (h2 : starts s.log = []) (h3 : finishes s.log = []) (h4 : NoBody s)
      (h5 : ∀ t, .exit t .returned ∉ s.log)
  | running (t : τ) (st : Int) (h1 : s.exec = { status := .processing }) (h2 : starts s.log = [t])
      (h3 : finishes s.log = []) (h4 : s.calls.get? t = some (.body st))
      (h5 : ∀ u su, s.calls.get? u = some (.body su) → u = t) (h6 : ∀ t, .exit t .returned ∉ s.log)
  | ended (t : τ) (o : Outcome ε α) (el : Int) (h1 : s.exec = (settle heap { status := .processing } el o).1)
      (h2 : starts s.log = [t]) (h3 : finishes s.log = [(t, o)]) (h4 : NoBody s)
      (h5 : .exit t (settle heap ({ status := .processing } : Execution ε α) el o).2 ∈ s.log)

/-- The lock is held exactly by the call that is past its acquisition. -/
def LockOK (s : Sys τ ε α) : Prop :=
  ∀ t, (∃ pc, s.calls.get? t = some pc ∧ pc ≠ .waiting) ↔ s.lock = some t

structure SysInv (heap : ε → ExcObj ε) (s : Sys τ ε α) : Prop where
  wf : s.calls.WF
  lock : LockOK s
  phase : Phase heap s

theorem settle_status_ne (heap : ε → ExcObj ε) (el : Int) (o : Outcome ε α) :
    ((settle heap ({ status := .processing } : Execution ε α) el o).1).status ≠ .pending := by
  cases o with
  | ret v => simp [settle, handle, onReturn]
  | deadline => simp [settle, handle, onTimeout]
  | raise e =>
    simp only [settle, handle]
    split
    · simp [onTimeout]
    · split
      · simp [onException]
      · split <;> simp [onCancel]

theorem inv_init (heap : ε → ExcObj ε) : SysInv heap ({} : Sys τ ε α) where
  wf := List.nodup_nil
  lock := by intro t; simp
  phase := .fresh rfl rfl rfl (by intro t st; simp) (by simp)

theorem NoBody.set {s : Sys τ ε α} (h : NoBody s) (t : τ) {pc : Pc} (hp : ∀ st, pc ≠ .body st) (s' : Sys τ ε α)
    (hs : s'.calls = s.calls.set t pc) : NoBody s' := by
  intro u st
  rw [hs, Dict.get?_set]
  split
  · intro h; injection h with h; exact hp st h
  · exact h u st

theorem NoBody.del {s : Sys τ ε α} (wf : s.calls.WF) (h : NoBody s) (t : τ) (s' : Sys τ ε α)
    (hs : s'.calls = s.calls.del t) : NoBody s' := by
  intro u st
  rw [hs, Dict.get?_del wf]
  split
  · simp
  · exact h u st

theorem LockOK.release {s : Sys τ ε α} (h : LockOK s) (wf : s.calls.WF) {t : τ} (ht : s.lock = some t) (s' : Sys τ ε α)
    (hc : s'.calls = s.calls.del t) (hl : s'.lock = none) : LockOK s' := by
  intro u
  rw [hc, hl, Dict.get?_del wf]
  by_cases hu : t = u
  · simp [hu]
  · simp only [if_neg hu]
    rw [h u, ht]
    simp [hu]

theorem step_inv (heap : ε → ExcObj ε) {s : Sys τ ε α} (h : SysInv heap s) (a : Act τ ε α) : SysInv heap (step heap s a) := by
  cases a with
  | call t =>
    simp only [step]
    split
    · exact h
    · next hn =>
      refine ⟨Dict.set_wf h.wf _ _, ?_, ?_⟩
      · intro u
        simp only [Dict.get?_set]
        rw [← h.lock u]
        by_cases hu : t = u
        · subst hu; simp [hn]
        · simp [hu]
      · cases h.phase with
        | fresh h1 h2 h3 h4 h5 => exact .fresh h1 h2 h3 (h4.set t (by simp) _ rfl) h5
        | running u st h1 h2 h3 h4 h5 h6 =>
          have hne : t ≠ u := by intro hc; rw [hc, h4] at hn; cases hn
          refine .running u st h1 h2 h3 (by simp only [Dict.get?_set, if_neg hne, h4]) ?_ h6
          intro v sv hv
          simp only [Dict.get?_set] at hv
          split at hv
          · cases hv
          · exact h5 v sv hv
        | ended u o el h1 h2 h3 h4 h5 => exact .ended u o el h1 h2 h3 (h4.set t (by simp) _ rfl) h5
  | acquire t =>
    simp only [step]
    split
    · next hw hl =>
      refine ⟨Dict.set_wf h.wf _ _, ?_, ?_⟩
      · intro u
        simp only [Dict.get?_set]
        by_cases hu : t = u
        · subst hu; simp
        · simp only [if_neg hu]
          rw [h.lock u, hl]; simp [hu]
      · cases h.phase with
        | fresh h1 h2 h3 h4 h5 => exact .fresh h1 h2 h3 (h4.set t (by simp) _ rfl) h5
        | running u st h1 h2 h3 h4 h5 h6 =>
          have := (h.lock u).1 ⟨_, h4, by simp⟩
          rw [hl] at this; cases this
        | ended u o el h1 h2 h3 h4 h5 => exact .ended u o el h1 h2 h3 (h4.set t (by simp) _ rfl) h5
    · exact h
  | cancelWait t e =>
    simp only [step]
    split
    · next hw =>
      refine ⟨Dict.del_wf h.wf _, ?_, ?_⟩
      · intro u
        simp only [Dict.get?_del h.wf]
        rw [← h.lock u]
        by_cases hu : t = u
        · subst hu; simp [hw]
        · simp [hu]
      · cases h.phase with
        | fresh h1 h2 h3 h4 h5 =>
          exact .fresh h1 (by simp [h2]) (by simp [h3]) (h4.del h.wf t _ rfl) (by simpa using h5)
        | running u st h1 h2 h3 h4 h5 h6 =>
          have hne : t ≠ u := by intro hc; rw [hc, h4] at hw; cases hw
          refine .running u st h1 (by simp [h2]) (by simp [h3]) (by simp only [Dict.get?_del h.wf, if_neg hne, h4]) ?_ (by simpa using h6)
          intro v sv hv
          simp only [Dict.get?_del h.wf] at hv
          split at hv
          · cases hv
          · exact h5 v sv hv
        | ended u o el h1 h2 h3 h4 h5 =>
          exact .ended u o el h1 (by simp [h2]) (by simp [h3]) (h4.del h.wf t _ rfl) (List.mem_append_left _ h5)
    · next hw =>
      have hl := (h.lock t).1 ⟨_, hw, by simp⟩
      refine ⟨Dict.del_wf h.wf _, h.lock.release h.wf hl _ rfl rfl, ?_⟩
      cases h.phase with
      | fresh h1 h2 h3 h4 h5 =>
        exact .fresh h1 (by simp [h2]) (by simp [h3]) (h4.del h.wf t _ rfl) (by simpa using h5)
      | running u st h1 h2 h3 h4 h5 h6 =>
        have hu := (h.lock u).1 ⟨_, h4, by simp⟩
        rw [hl] at hu; injection hu with hu; subst hu
        rw [h4] at hw; cases hw
      | ended u o el h1 h2 h3 h4 h5 =>
        exact .ended u o el h1 (by simp [h2]) (by simp [h3]) (h4.del h.wf t _ rfl) (List.mem_append_left _ h5)
    · exact h
  | enter t now =>
    simp only [step]
    split
    · next hw =>
      have hl := (h.lock t).1 ⟨_, hw, by simp⟩
      split
      · next hs =>
        refine ⟨Dict.del_wf h.wf _, h.lock.release h.wf hl _ rfl rfl, ?_⟩
        cases h.phase with
        | fresh h1 h2 h3 h4 h5 => rw [h1] at hs; exact absurd rfl hs
        | running u st h1 h2 h3 h4 h5 h6 =>
          have hu := (h.lock u).1 ⟨_, h4, by simp⟩
          rw [hl] at hu; injection hu with hu; subst hu
          rw [h4] at hw; cases hw
        | ended u o el h1 h2 h3 h4 h5 =>
          exact .ended u o el h1 (by simp [h2]) (by simp [h3]) (h4.del h.wf t _ rfl) (List.mem_append_left _ h5)
      · next hs =>
        have hs : s.exec.status = .pending := by simpa using hs
        refine ⟨Dict.set_wf h.wf _ _, ?_, ?_⟩
        · intro u
          simp only [Dict.get?_set]
          rw [← h.lock u]
          by_cases hu : t = u
          · subst hu; simp [hw]
          · simp [hu]
        · cases h.phase with
          | fresh h1 h2 h3 h4 h5 =>
            refine .running t now (by simp [h1]) (by simp [h2]) (by simp [h3]) (by simp [Dict.get?_set]) ?_ (by simpa using h5)
            intro v sv hv
            simp only [Dict.get?_set] at hv
            split at hv
            · next h => exact h.symm
            · exact absurd hv (h4 v sv)
          | running u st h1 h2 h3 h4 h5 h6 => rw [h1] at hs; cases hs
          | ended u o el h1 h2 h3 h4 h5 => rw [h1] at hs; exact absurd hs (settle_status_ne heap el o)
    · exact h
  | finish t now o =>
    simp only [step]
    split
    · next st hw =>
      have hl := (h.lock t).1 ⟨_, hw, by simp⟩
      refine ⟨Dict.del_wf h.wf _, h.lock.release h.wf hl _ rfl rfl, ?_⟩
      cases h.phase with
      | fresh h1 h2 h3 h4 h5 => exact absurd hw (h4 t st)
      | ended u o' el h1 h2 h3 h4 h5 => exact absurd hw (h4 t st)
      | running u su h1 h2 h3 h4 h5 h6 =>
        have hu := h5 t st hw
        subst hu
        refine .ended t o (now - st) (by simp [h1]) (by simp [h2]) (by simp [h3]) ?_ (by simp [h1])
        intro v sv
        simp only [Dict.get?_del h.wf]
        split
        · simp
        · next hv => intro hc; exact hv (h5 v sv hc).symm
    · exact h

theorem run_inv (heap : ε → ExcObj ε) (as : List (Act τ ε α)) {s : Sys τ ε α} (h : SysInv heap s) :
    SysInv heap (run heap s as) := by
  induction as generalizing s with
  | nil => exact h
  | cons a as ih => exact ih (step_inv heap h a)

theorem run_append (heap : ε → ExcObj ε) (s : Sys τ ε α) (as bs : List (Act τ ε α)) :
    run heap s (as ++ bs) = run heap (run heap s as) bs := List.foldl_append

/-- The log only grows. -/
theorem step_log (heap : ε → ExcObj ε) (s : Sys τ ε α) (a : Act τ ε α) : s.log <+: (step heap s a).log := by
  cases a <;> simp only [step] <;> split <;> first | exact List.prefix_rfl | exact List.prefix_append _ _ | skip
  split
  · exact List.prefix_append _ _
  · exact List.prefix_append _ _

theorem run_log (heap : ε → ExcObj ε) (as : List (Act τ ε α)) (s : Sys τ ε α) : s.log <+: (run heap s as).log := by
  induction as generalizing s with
  | nil => exact List.prefix_rfl
  | cons a as ih => exact (step_log heap s a).trans (ih _)

theorem step_finished (heap : ε → ExcObj ε) {s : Sys τ ε α} (h : SysInv heap s) (hf : finishes s.log ≠ [])
    (a : Act τ ε α) : (step heap s a).exec = s.exec := by
  cases h.phase with
  | fresh h1 h2 h3 h4 h5 => exact absurd h3 hf
  | running u st h1 h2 h3 h4 h5 h6 => exact absurd h3 hf
  | ended u o el h1 h2 h3 h4 h5 =>
    cases a with
    | call t => simp only [step]; split <;> rfl
    | acquire t => simp only [step]; split <;> rfl
    | cancelWait t e => simp only [step]; split <;> rfl
    | enter t now =>
      simp only [step]; split
      · split
        · rfl
        · next hs =>
          have hs : s.exec.status = .pending := by simpa using hs
          rw [h1] at hs; exact absurd hs (settle_status_ne heap el o)
      · rfl
    | finish t now o =>
      simp only [step]; split
      · next st hw => exact absurd hw (h4 t st)
      · rfl

theorem run_finished (heap : ε → ExcObj ε) (as : List (Act τ ε α)) {s : Sys τ ε α} (h : SysInv heap s)
    (hf : finishes s.log ≠ []) : (run heap s as).exec = s.exec := by
  induction as generalizing s with
  | nil => rfl
  | cons a as ih =>
    show (run heap (step heap s a) as).exec = _
    rw [ih (step_inv heap h a) ?_, step_finished heap h hf a]
    intro hc
    obtain ⟨l, hl⟩ := step_log heap s a
    rw [← hl, finishes_append, List.append_eq_nil_iff] at hc
    exact hf hc.1

/-- C21.  Whatever the schedule of concurrent `invoke()` calls (any number of calls, any interleaving, any cancellations, any
outcome of the body): the body is started at most once. -/
theorem C21_body_at_most_once (heap : ε → ExcObj ε) (as : List (Act τ ε α)) :
    (starts (run heap ({} : Sys τ ε α) as).log).length ≤ 1 := by
  cases (run_inv heap as (inv_init heap)).phase with
  | fresh h1 h2 h3 h4 h5 => simp [h2]
  | running u st h1 h2 h3 h4 h5 h6 => simp [h2]
  | ended u o el h1 h2 h3 h4 h5 => simp [h2]

/-- C21.  Once the body has ended, no later step of any call changes status, response, error, retryable or duration. -/
theorem C21_final (heap : ε → ExcObj ε) (as bs : List (Act τ ε α))
    (hf : finishes (run heap ({} : Sys τ ε α) as).log ≠ []) :
    (run heap {} (as ++ bs)).exec = (run heap {} as).exec := by
  rw [run_append]; exact run_finished heap bs (run_inv heap as (inv_init heap)) hf

/-- C21.  A call of `invoke()` returns (without raising) only when the body has been started exactly once and has ended: a concurrent
caller never sees an unfinished event. -/
theorem C21_return_means_ended (heap : ε → ExcObj ε) (as : List (Act τ ε α)) (t : τ)
    (hr : .exit t .returned ∈ (run heap ({} : Sys τ ε α) as).log) :
    ∃ u o, starts (run heap ({} : Sys τ ε α) as).log = [u] ∧ finishes (run heap ({} : Sys τ ε α) as).log = [(u, o)] := by
  cases (run_inv heap as (inv_init heap)).phase with
  | fresh h1 h2 h3 h4 h5 => exact absurd hr (h5 t)
  | running u st h1 h2 h3 h4 h5 h6 => exact absurd hr (h6 t)
  | ended u o el h1 h2 h3 h4 h5 => exact ⟨u, o, h2, h3⟩

/-- C21.  Until the body ends nothing but the status is set. -/
theorem C21_before_end (heap : ε → ExcObj ε) (as : List (Act τ ε α))
    (hf : finishes (run heap ({} : Sys τ ε α) as).log = []) :
    (run heap ({} : Sys τ ε α) as).exec =
      { status := if starts (run heap ({} : Sys τ ε α) as).log = [] then .pending else .processing } := by
  cases (run_inv heap as (inv_init heap)).phase with
  | fresh h1 h2 h3 h4 h5 => rw [h1, h2]; rfl
  | running u st h1 h2 h3 h4 h5 h6 => rw [h1, h2]; rfl
  | ended u o el h1 h2 h3 h4 h5 => rw [h3] at hf; cases hf

/-- C21.  The lock never blocks forever by itself: as long as calls are in progress, some call can take a step that is not a
cancellation (it acquires the lock, runs to its first await, or is inside the body). -/
theorem C21_progress (heap : ε → ExcObj ε) (as : List (Act τ ε α))
    (hc : (run heap ({} : Sys τ ε α) as).calls ≠ []) :
    ∃ t pc, (run heap ({} : Sys τ ε α) as).calls.get? t = some pc ∧
      (pc = .waiting → (run heap ({} : Sys τ ε α) as).lock = none) := by
  have h := run_inv heap as (inv_init (τ := τ) (α := α) heap)
  cases hl : (run heap ({} : Sys τ ε α) as).lock with
  | some t =>
    obtain ⟨pc, h1, h2⟩ := (h.lock t).2 hl
    exact ⟨t, pc, h1, fun hc => absurd hc h2⟩
  | none =>
    cases hcs : (run heap ({} : Sys τ ε α) as).calls with
    | nil => exact absurd hcs hc
    | cons kv rest => exact ⟨kv.1, kv.2, by cases kv; simp [Dict.get?], fun _ => rfl⟩

/-- The documented result of `invoke` for each way the body can end (`event.py:30-37, 253-259` and C22), as a table. -/
inductive Documented (heap : ε → ExcObj ε) : Outcome ε α → Execution ε α → Exit ε → Prop where
  | completed (v : α) (d : Int) :
      Documented heap (.ret v) ⟨.completed, some d, some v, .none_, some false⟩ .returned
  | timedOut (d : Int) : Documented heap .deadline ⟨.cancelled, some d, none, .timeout, some true⟩ .returned
  | timeoutError (e : ε) (d : Int) : (heap e).isTimeout = true →
      Documented heap (.raise e) ⟨.cancelled, some d, none, .timeout, some true⟩ .returned
  | failed (e : ε) (d : Int) (r : Bool) : (heap e).isTimeout = false → (heap e).isException = true →
      Documented heap (.raise e) ⟨.failed, some d, none, .raised e, some r⟩ .returned
  | cancelled (e : ε) (d : Int) : (heap e).isTimeout = false → (heap e).isException = false → (heap e).isCancel = true →
      Documented heap (.raise e) ⟨.cancelled, some d, none, .raised e, some true⟩ (.raised e)

/-- An outcome the documentation talks about: not a `BaseException` that is neither an `Exception` nor a cancellation. -/
def Outcome.Ordinary (heap : ε → ExcObj ε) : Outcome ε α → Prop
  | .raise e => (heap e).isTimeout = true ∨ (heap e).isException = true ∨ (heap e).isCancel = true
  | _ => True

/-- C22.  In every schedule, if the body ended with outcome `o` (any value, any exception object, the deadline), the
execution record and the way the call ended are the documented ones. -/
theorem C22_outcome (heap : ε → ExcObj ε) (as : List (Act τ ε α)) (t : τ) (o : Outcome ε α)
    (hf : (t, o) ∈ finishes (run heap ({} : Sys τ ε α) as).log) (ho : o.Ordinary heap) :
    ∃ x, Documented heap o (run heap ({} : Sys τ ε α) as).exec x ∧ .exit t x ∈ (run heap ({} : Sys τ ε α) as).log := by
  cases (run_inv heap as (inv_init heap)).phase with
  | fresh h1 h2 h3 h4 h5 => rw [h3] at hf; cases hf
  | running u st h1 h2 h3 h4 h5 h6 => rw [h3] at hf; cases hf
  | ended u o' el h1 h2 h3 h4 h5 =>
    rw [h3] at hf
    simp only [List.mem_singleton, Prod.mk.injEq] at hf
    obtain ⟨rfl, rfl⟩ := hf
    refine ⟨_, ?_, h5⟩
    rw [h1]
    cases o with
    | ret v => exact .completed v el
    | deadline => exact .timedOut el
    | raise e =>
      simp only [settle, handle]
      by_cases hti : (heap e).isTimeout = true
      · simp only [hti, if_true]; exact .timeoutError e el hti
      · by_cases hex : (heap e).isException = true
        · simp only [hti, hex, if_true, if_false]
          exact .failed e el _ (by simpa using hti) hex
        · have hca : (heap e).isCancel = true := by
            rcases ho with h | h | h
            · exact absurd h hti
            · exact absurd h hex
            · exact h
          simp only [hti, hex, hca, if_true, if_false]
          exact .cancelled e el (by simpa using hti) (by simpa using hex) hca

/-- Statuses an event can end in. -/
def Status.terminal : Status → Bool
  | .pending | .processing => false
  | _ => true

/-- C89.  When the body has ended the status is terminal and the duration is set — provided the body did not end with a
`BaseException` that is neither an `Exception` nor a cancellation.  The full statement (without `ho`) is false, see
`C89_base_exception_limit`. -/
theorem C89_terminal (heap : ε → ExcObj ε) (as : List (Act τ ε α)) (t : τ) (o : Outcome ε α)
    (hf : (t, o) ∈ finishes (run heap ({} : Sys τ ε α) as).log) (ho : o.Ordinary heap) :
    (run heap ({} : Sys τ ε α) as).exec.status.terminal = true ∧
      ∃ d, (run heap ({} : Sys τ ε α) as).exec.duration = some d := by
  obtain ⟨x, hd, -⟩ := C22_outcome heap as t o hf ho
  generalize hE : (run heap ({} : Sys τ ε α) as).exec = E at hd
  cases hd <;> exact ⟨rfl, _, rfl⟩

/-- Outside the domain of C89: when the body raises e.g. `KeyboardInterrupt` or `SystemExit`, the event stays PROCESSING for ever, and later
`invoke()` calls return silently. -/
theorem C89_base_exception_limit :
    let heap : Unit → ExcObj Unit := fun _ => { cls := "KeyboardInterrupt", text := "", isException := false }
    let s := run heap ({} : Sys Nat Unit Unit)
      [.call 0, .acquire 0, .enter 0 5, .finish 0 9 (.raise ()), .call 1, .acquire 1, .enter 1 20]
    s.exec.status = .processing ∧ .exit 1 .returned ∈ s.log ∧ s.calls = [] := by
  decide

/-- Non-vacuity of C21/C22/C89: three interleaved calls (one cancelled while waiting), the body fails once. -/
example :
    let heap : Nat → ExcObj Nat := fun _ => { cls := "ValueError", text := "bad" }
    let s := run heap ({} : Sys Nat Nat Nat)
      [.call 0, .call 1, .acquire 0, .call 2, .enter 0 5, .cancelWait 2 7, .acquire 1, .finish 0 9 (.raise 3), .acquire 1,
       .enter 1 20]
    s.exec = ⟨.failed, some 4, none, .raised 3, some true⟩ ∧ starts s.log = [0] ∧ finishes s.log = [(0, .raise 3)] ∧
      .exit 1 .returned ∈ s.log := by
  decide

/-! ### C23 -/

/-- `Under heap e x`: `x` is `e` itself or sits somewhere inside the exception group `e` (at any nesting depth). -/
inductive Under (heap : ε → ExcObj ε) : ε → ε → Prop where
  | self (e : ε) : Under heap e e
  | member {e m x : ε} {ms : List ε} : (heap e).group = some ms → m ∈ ms → Under heap m x → Under heap e x

/-- `x` is a `LionherdError` marked non-retryable. -/
def NonRetryable (heap : ε → ExcObj ε) (x : ε) : Prop := (heap x).lion = some false

/-- C23 (partial).  After a failed `invoke()`, `retryable` is `False` exactly when the exception — or, if it is a group whose members
are not themselves groups, one of its members — is a `LionherdError` marked non-retryable.  The full statement drops the hypothesis
`hflat` ("no nested groups"); it is false, see `C23_nested_violation`. -/
theorem C23_retryable_partial (heap : ε → ExcObj ε) (as : List (Act τ ε α)) (t : τ) (e : ε)
    (hf : (t, .raise e) ∈ finishes (run heap ({} : Sys τ ε α) as).log)
    (hx : (heap e).isTimeout = false ∧ (heap e).isException = true)
    (hgl : (heap e).group.isSome = true → (heap e).lion = none)
    (hflat : ∀ ms m, (heap e).group = some ms → m ∈ ms → (heap m).group = none) :
    ((run heap ({} : Sys τ ε α) as).exec.retryable = some false ↔ ∃ x, Under heap e x ∧ NonRetryable heap x) ∧
    ((run heap ({} : Sys τ ε α) as).exec.retryable = some true ↔ ¬ ∃ x, Under heap e x ∧ NonRetryable heap x) := by
  have key : (run heap ({} : Sys τ ε α) as).exec.retryable = some (failedRetryable heap e) := by
    cases (run_inv heap as (inv_init heap)).phase with
    | fresh h1 h2 h3 h4 h5 => rw [h3] at hf; cases hf
    | running u st h1 h2 h3 h4 h5 h6 => rw [h3] at hf; cases hf
    | ended u o' el h1 h2 h3 h4 h5 =>
      rw [h3] at hf
      simp only [List.mem_singleton, Prod.mk.injEq] at hf
      obtain ⟨rfl, rfl⟩ := hf
      rw [h1]; simp [settle, handle, hx.1, hx.2, onException]
  have key2 : failedRetryable heap e = false ↔ ∃ x, Under heap e x ∧ NonRetryable heap x := by
    unfold failedRetryable
    cases hg : (heap e).group with
    | none =>
      constructor
      · intro h
        refine ⟨e, .self e, ?_⟩
        unfold NonRetryable
        cases hl : (heap e).lion with
        | none => rw [hl] at h; cases h
        | some b => rw [hl] at h; simp at h; rw [h]
      · rintro ⟨x, hu, hn⟩
        cases hu with
        | self => rw [hn]; rfl
        | member h _ _ => rw [hg] at h; cases h
    | some ms =>
      simp only [Bool.not_eq_false', List.any_eq_true, nonRetryableLion, beq_iff_eq]
      constructor
      · rintro ⟨m, hm, hr⟩
        exact ⟨m, .member hg hm (.self m), hr⟩
      · rintro ⟨x, hu, hn⟩
        cases hu with
        | self =>
          have := hgl (by rw [hg]; rfl)
          unfold NonRetryable at hn
          rw [this] at hn; cases hn
        | member h hm hu =>
          cases hu with
          | self => rw [hg] at h; injection h with h; subst h; exact ⟨x, hm, hn⟩
          | member h' _ _ => rw [hflat _ _ h hm] at h'; cases h'
  rw [key]
  constructor
  · rw [← key2]; simp
  · rw [← key2]; simp

/-- C23 is false for nested groups: `ExceptionGroup([ExceptionGroup([ValidationError])])` contains a non-retryable error but the
execution is marked retryable. -/
theorem C23_nested_violation :
    let heap : Nat → ExcObj Nat := fun
      | 0 => { cls := "ExceptionGroup", text := "outer", group := some [1] }
      | 1 => { cls := "ExceptionGroup", text := "inner", group := some [2] }
      | _ => { cls := "ValidationError", text := "bad", lion := some false }
    let s := run heap ({} : Sys Nat Nat Unit) [.call 0, .acquire 0, .enter 0 0, .finish 0 1 (.raise 0)]
    s.exec.status = .failed ∧ s.exec.retryable = some true ∧ (∃ x, Under heap 0 x ∧ NonRetryable heap x) := by
  refine ⟨by decide, by decide, 2, ?_, rfl⟩
  exact .member (m := 1) (ms := [1]) rfl (by simp) (.member (m := 2) (ms := [2]) rfl (by simp) (.self 2))

/-- Non-vacuity of C23: a group with a retryable and a non-retryable member. -/
example :
    let heap : Nat → ExcObj Nat := fun
      | 0 => { cls := "ExceptionGroup", text := "g", group := some [1, 2] }
      | 1 => { cls := "ValueError", text := "x" }
      | _ => { cls := "NotFoundError", text := "bad", lion := some false }
    (run heap ({} : Sys Nat Nat Unit) [.call 0, .acquire 0, .enter 0 0, .finish 0 1 (.raise 0)]).exec.retryable = some false := by
  decide

/-! ### C25 -/

/-- The nesting depth of a serialised error is at most the given number. -/
def Ser.DepthLe : Nat → Ser → Prop
  | 0, _ => False
  | k + 1, .group _ _ ms => ∀ m ∈ ms, Ser.DepthLe k m
  | _ + 1, _ => True

section
variable [DecidableEq ε]

theorem serMember_depth (heap : ε → ExcObj ε) (grp : ε → List ε → Ser) (k : Nat) (h : ∀ e ms, (grp e ms).DepthLe (k + 1))
    (m : ε) : (serMember heap grp m).DepthLe (k + 1) := by
  unfold serMember
  split
  · trivial
  · exact h _ _
  · trivial

theorem serGroup_depth (heap : ε → ExcObj ε) (k : Nat) (seen : List ε) (e : ε) (ms : List ε) :
    (serGroup heap k seen e ms).DepthLe (k + 1) := by
  induction k generalizing seen e ms with
  | zero => trivial
  | succ k ih =>
    rw [serGroup]
    split
    · trivial
    · intro m hm
      simp only [List.mem_map] at hm
      obtain ⟨x, _, rfl⟩ := hm
      exact serMember_depth heap _ k (fun e ms => ih _ e ms) x

/-- C25.  Whatever the exception objects — groups nested arbitrarily deeply, shared, or cyclic — serialisation ends (the model is a
total function) with a value nested at most 102 levels deep. -/
theorem C25_bounded (heap : ε → ExcObj ε) (err : Err ε) (s : Ser) (h : serError heap err = some s) : s.DepthLe 102 := by
  cases err with
  | unset => cases h
  | none_ => cases h
  | timeout => simp only [serError, Option.some.injEq] at h; subst h; trivial
  | raised e =>
    simp only [serError, Option.some.injEq] at h; subst h
    exact serMember_depth heap _ 101 (fun e ms => serGroup_depth heap _ _ e ms) e

/-- C25.  There is an `error` entry exactly when an error is recorded. -/
theorem C25_some (heap : ε → ExcObj ε) (err : Err ε) : (serError heap err).isSome = true ↔ (err ≠ .unset ∧ err ≠ .none_) := by
  cases err <;> simp [serError]

/-- `e` is treated as a group: it is an `ExceptionGroup` and not a `LionherdError`. -/
def IsGroup (heap : ε → ExcObj ε) (e : ε) (ms : List ε) : Prop := (heap e).lion = none ∧ (heap e).group = some ms

/-- Groups under `e` nest at most `k` deep. -/
def NestLe (heap : ε → ExcObj ε) : Nat → ε → Prop
  | 0, e => ∀ ms, ¬ IsGroup heap e ms
  | k + 1, e => ∀ ms, IsGroup heap e ms → ∀ m ∈ ms, NestLe heap k m

/-- `s` is the complete image of the exception tree below `e`: nothing is cut off, every member at every level is present in
order. -/
inductive Complete (heap : ε → ExcObj ε) : ε → Ser → Prop where
  | lion {e : ε} {r : Bool} : (heap e).lion = some r → Complete heap e (.lion (heap e).cls (heap e).text r)
  | plain {e : ε} : (heap e).lion = none → (heap e).group = none → Complete heap e (.plain (heap e).cls (heap e).text)
  | group {e : ε} {ms : List ε} {ss : List Ser} : IsGroup heap e ms → ss.length = ms.length →
      (∀ (i : Nat) (m : ε) (s : Ser), ms[i]? = some m → ss[i]? = some s → Complete heap m s) →
      Complete heap e (.group (heap e).cls (heap e).text ss)

/-- One step down into a group. -/
def Member (heap : ε → ExcObj ε) (e m : ε) : Prop := ∃ ms, IsGroup heap e ms ∧ m ∈ ms

theorem NestLe.mono {heap : ε → ExcObj ε} {k : Nat} {e : ε} (h : NestLe heap k e) : NestLe heap (k + 1) e := by
  induction k generalizing e with
  | zero => intro ms hg; exact absurd hg (h ms)
  | succ k ih => intro ms hg m hm; exact ih (h ms hg m hm)

theorem NestLe.path {heap : ε → ExcObj ε} {e x : ε} (hp : Relation.TransGen (Member heap) e x) :
    ∀ k, NestLe heap k e → ∃ j, j < k ∧ NestLe heap j x := by
  induction hp with
  | single hm =>
    intro k h
    obtain ⟨ms, hg, hm⟩ := hm
    cases k with
    | zero => exact absurd hg (h ms)
    | succ k => exact ⟨k, by omega, h ms hg _ hm⟩
  | tail _ hm ih =>
    intro k h
    obtain ⟨j, hj, hn⟩ := ih k h
    obtain ⟨ms, hg, hm⟩ := hm
    cases j with
    | zero => exact absurd hg (hn ms)
    | succ j => exact ⟨j, by omega, hn ms hg _ hm⟩

theorem NestLe.irrefl {heap : ε → ExcObj ε} {e : ε} (k : Nat) (h : NestLe heap k e) :
    ¬ Relation.TransGen (Member heap) e e := by
  intro hp
  induction k using Nat.strongRecOn with
  | _ k ih =>
    obtain ⟨j, hj, hn⟩ := NestLe.path hp k h
    exact ih j hj hn

theorem serGroup_complete (heap : ε → ExcObj ε) (k : Nat) : ∀ (seen : List ε) (e : ε) (ms : List ε), NestLe heap k e →
    IsGroup heap e ms → (∀ s ∈ seen, Relation.TransGen (Member heap) s e) → Complete heap e (serGroup heap k seen e ms) := by
  induction k with
  | zero => intro seen e ms h hg; exact absurd hg (h ms)
  | succ k ih =>
    intro seen e ms h hg hs
    rw [serGroup, if_neg]
    · refine .group hg (by simp) ?_
      intro i m s hm hs'
      simp only [List.getElem?_map, hm, Option.map_some, Option.some.injEq] at hs'
      subst hs'
      have hmem := List.mem_of_getElem? hm
      unfold serMember
      split
      · next r hl => exact .lion hl
      · next ms' h1 h2 =>
        refine ih _ m ms' (h ms hg m hmem) ⟨h1, h2⟩ ?_
        intro s hs'
        rcases List.mem_cons.1 hs' with rfl | hs'
        · exact .single ⟨ms, hg, hmem⟩
        · exact .tail (hs s hs') ⟨ms, hg, hmem⟩
      · next h1 h2 => exact .plain h1 h2
    · intro hc
      exact NestLe.irrefl _ h (hs e hc)

/-- C25.  When groups nest at most 101 deep (in particular no cycles), nothing is cut off: the serialised error is the complete
exception tree. -/
theorem C25_complete (heap : ε → ExcObj ε) (e : ε) (h : NestLe heap 101 e) :
    ∃ s, serError heap (.raised e) = some s ∧ Complete heap e s := by
  refine ⟨_, rfl, ?_⟩
  unfold serMember
  split
  · next r hl => exact .lion hl
  · next ms h1 h2 => exact serGroup_complete heap _ [] e ms h ⟨h1, h2⟩ (by simp)
  · next h1 h2 => exact .plain h1 h2

end

/-- Non-vacuity of C25: a cyclic group, and a nested one that is reproduced completely. -/
example :
    let heap : Nat → ExcObj Nat := fun
      | 0 => { cls := "ExceptionGroup", text := "a", group := some [1, 2] }
      | 1 => { cls := "ExceptionGroup", text := "b", group := some [0] }
      | _ => { cls := "ValueError", text := "x" }
    serError heap (.raised 0) =
      some (.group "ExceptionGroup" "a" [.group "ExceptionGroup" "b" [.circular], .plain "ValueError" "x"]) := by
  rfl

example :
    let heap : Nat → ExcObj Nat := fun
      | 0 => { cls := "ExceptionGroup", text := "a", group := some [1, 2] }
      | 1 => { cls := "ExceptionGroup", text := "b", group := some [2] }
      | _ => { cls := "ValueError", text := "x" }
    serError heap (.raised 0) =
      some (.group "ExceptionGroup" "a" [.group "ExceptionGroup" "b" [.plain "ValueError" "x"], .plain "ValueError" "x"]) := by
  rfl

/-! ### C90: add_error -/

section
variable [DecidableEq ε]

/-- Run `add_error` for a sequence of (fresh group identity, exception) pairs; exceptions raised by a call are ignored by the
caller. -/
def addErrors (s : (ε → ExcObj ε) × Option ε) (xs : List (ε × ε)) : (ε → ExcObj ε) × Option ε :=
  xs.foldl (fun s x => (addError s x.1 x.2).1) s

/-- The leaf exceptions recorded in a state: everything that is not a group and sits under the current error. -/
def Records (s : (ε → ExcObj ε) × Option ε) (x : ε) : Prop := ∃ e, s.2 = some e ∧ Under s.1 e x

theorem Under.alloc {heap : ε → ExcObj ε} {fresh : ε} {ms : List ε} (e x : ε) (h : Under heap e x)
    (hf : ∀ y, Under heap e y → y ≠ fresh) : Under (allocGroup heap fresh ms) e x := by
  induction h with
  | self e => exact .self e
  | @member e m x l hg hm hu ih =>
    refine .member (ms := l) (m := m) ?_ hm (ih ?_)
    · unfold allocGroup; rw [if_neg (hf e (.self e))]; exact hg
    · intro y hy; exact hf y (.member hg hm hy)

/-- C90.  `add_error` never loses an error: when the new and the recorded errors are `Exception`s, the call succeeds and
afterwards the new exception and every exception that was recorded — all non-group exceptions at any depth — are still recorded.
`hfresh`: the group object it creates is new.  Not covered: other `BaseException`s, for which the call raises `TypeError` and loses the
error (`C90_base_exception_limit`). -/
theorem C90_add_error (s : (ε → ExcObj ε) × Option ε) (fresh e : ε)
    (hfresh : ∀ y, (Records s y ∨ Under s.1 e y) → y ≠ fresh)
    (hexc : ∀ y, (Records s y ∨ Under s.1 e y) → (s.1 y).isException = true) :
    (addError s fresh e).2 = .ok () ∧
    ∀ x, (s.1 x).group = none → (Records s x ∨ Under s.1 e x) → Records (addError s fresh e).1 x := by
  obtain ⟨heap, err⟩ := s
  unfold addError
  cases err with
  | none =>
    refine ⟨rfl, ?_⟩
    intro x hx h
    rcases h with ⟨y, hy, _⟩ | h
    · cases hy
    · exact ⟨e, rfl, h⟩
  | some old =>
    have hold : ∀ y, Under heap old y → Records (heap, some old) y := fun y hy => ⟨old, rfl, hy⟩
    have hmem : ∀ m ∈ mergedMembers heap old e, Records (heap, some old) m ∨ Under heap e m := by
      intro m hm
      unfold mergedMembers at hm
      split at hm
      · next ms hg =>
        simp only [List.mem_append, List.mem_singleton] at hm
        rcases hm with hm | rfl
        · exact .inl (hold m (.member hg hm (.self m)))
        · exact .inr (.self m)
      · simp only [List.mem_cons, List.not_mem_nil, or_false] at hm
        rcases hm with rfl | rfl
        · exact .inl (hold m (.self m))
        · exact .inr (.self m)
    have hall : (mergedMembers heap old e).all (fun m => (heap m).isException) = true := by
      rw [List.all_eq_true]; intro m hm; exact hexc m (hmem m hm)
    simp only [hall, if_true]
    refine ⟨trivial, ?_⟩
    intro x hx h
    have hgrp : (allocGroup heap fresh (mergedMembers heap old e) fresh).group = some (mergedMembers heap old e) := by
      simp [allocGroup]
    refine ⟨fresh, rfl, ?_⟩
    rcases h with ⟨y, hy, hu⟩ | hu
    · injection hy with hy; subst hy
      cases hg : (heap old).group with
      | none =>
        refine .member hgrp (m := old) (by simp [mergedMembers, hg]) (Under.alloc _ _ hu ?_)
        intro z hz; exact hfresh z (.inl (hold z hz))
      | some ms =>
        cases hu with
        | self => rw [hx] at hg; cases hg
        | @member _ m _ l hl hm hu =>
          rw [hg] at hl; injection hl with hl; subst hl
          refine .member hgrp (m := m) (by simp [mergedMembers, hg, hm]) (Under.alloc _ _ hu ?_)
          intro z hz; exact hfresh z (.inl (hold z (.member hg hm hz)))
    · refine .member hgrp (m := e) ?_ (Under.alloc _ _ hu ?_)
      · unfold mergedMembers; split <;> simp
      · intro z hz; exact hfresh z (.inr hz)

end

/-- Outside the domain of C90: for a `BaseException` that is not an `Exception` (e.g. a cancellation added after another error): the call raises
`TypeError` and the error is not recorded. -/
theorem C90_base_exception_limit :
    let heap : Nat → ExcObj Nat := fun
      | 0 => { cls := "ValueError", text := "x" }
      | _ => { cls := "CancelledError", text := "", isException := false, isCancel := true }
    let s := addError (heap, some 0) 5 1
    s.2 = .error .typeError ∧ ¬ Records s.1 1 := by
  refine ⟨by decide, ?_⟩
  rintro ⟨e, he, hu⟩
  have he : (0 : Nat) = e := by injection he
  subst he
  cases hu with
  | member h _ _ => cases h

/-- Non-vacuity of C90: three errors added in turn are all recorded in one flat group. -/
example :
    let heap : Nat → ExcObj Nat := fun _ => { cls := "ValueError", text := "x" }
    let s := addErrors (heap, none) [(10, 0), (11, 1), (12, 2)]
    s.2 = some 12 ∧ (s.1 12).group = some [0, 1, 2] := by
  decide

/-! ### C24 -/

section
variable {ι ν : Type}

/-- C24.  `as_fresh_event` gives a pending event: new id, status PENDING, no response, error, duration or retryable flag, the same
timeout, the original's identity in the metadata and, exactly if asked for, the original's other metadata. -/
theorem C24_fresh (again : ν → ν) (dflt : String → ν) (original : ι → Int → ν) (freshId : ι) (now : Int) (copyMeta : Bool)
    (ev : Ev ι ν ε α) (hid : freshId ≠ ev.id) :
    let f := asFresh again dflt original freshId now copyMeta ev
    f.id ≠ ev.id ∧ f.exec = ⟨.pending, none, none, .unset, none⟩ ∧ f.timeout = ev.timeout ∧
      f.metadata.get? "original" = some (original ev.id ev.createdAt) ∧
      (copyMeta = true → ∀ k, k ≠ "original" → f.metadata.get? k = ev.metadata.get? k) ∧
      (copyMeta = false → ∀ k, k ≠ "original" → f.metadata.get? k = none) := by
  refine ⟨hid, rfl, rfl, ?_, ?_, ?_⟩
  · simp [asFresh, Dict.get?_set]
  · intro hc k hk
    simp only [asFresh, hc, if_true, Dict.get?_set]
    rw [if_neg (Ne.symm hk)]
  · intro hc k hk
    simp only [asFresh, hc, Bool.false_eq_true, if_false, Dict.get?_set]
    rw [if_neg (Ne.symm hk)]; rfl

theorem get?_dumped (again : ν → ν) (fs : Dict String (FieldVal ν)) (wf : fs.WF) (k : String) :
    (dumped again fs).get? k =
      (fs.get? k).bind (fun v => if v.excluded then none else some (again v.value)) := by
  induction fs with
  | nil => rfl
  | cons kv fs ih =>
    obtain ⟨a, b⟩ := kv
    simp only [Dict.WF, Dict.keys_cons, List.nodup_cons] at wf
    rw [Dict.get?_cons]
    by_cases hx : b.excluded = true
    · have hd : dumped again ((a, b) :: fs) = dumped again fs := by
        unfold dumped; rw [List.filter_cons_of_neg (by simp [hx])]
      rw [hd, ih wf.2]
      by_cases hk : a = k
      · subst hk
        rw [if_pos rfl, (Dict.get?_eq_none_iff _ _).2 wf.1]
        simp [hx]
      · rw [if_neg hk]
    · have hd : dumped again ((a, b) :: fs) = (a, again b.value) :: dumped again fs := by
        unfold dumped; rw [List.filter_cons_of_pos (by simp [hx])]; rfl
      rw [hd, Dict.get?_cons, ih wf.2]
      by_cases hk : a = k
      · simp [hk, hx]
      · simp [hk]

/-- C24.  Every configuration field that is part of the serialised form is the same in the fresh event.  `hagain`: dumping and
validating a value gives it back.  The full statement — *every* configuration field is kept — is false for fields declared
`exclude=True` other than `timeout`, among them `streaming` (`C178_streaming_violation`). -/
theorem C24_fields (again : ν → ν) (hagain : ∀ v, again v = v) (dflt : String → ν) (original : ι → Int → ν) (freshId : ι)
    (now : Int) (copyMeta : Bool) (ev : Ev ι ν ε α) (wf : ev.fields.WF) (k : String) (v : ν)
    (hk : ev.fields.get? k = some ⟨v, false⟩) :
    (asFresh again dflt original freshId now copyMeta ev).fields.get? k = some ⟨v, false⟩ := by
  have h1 := get?_dumped again ev.fields wf
  show (construct dflt ev.fields (dumped again ev.fields)).get? k = _
  generalize hg : dumped again ev.fields = given at h1
  have hgk : given.get? k = some v := by rw [h1, hk]; simp [hagain]
  clear h1 hg
  revert hk
  generalize ev.fields = fs
  intro hk
  induction fs with
  | nil => cases hk
  | cons kv fs ih =>
    obtain ⟨a, b⟩ := kv
    rw [Dict.get?_cons] at hk
    show Dict.get? ((a, _) :: construct dflt fs given) k = _
    rw [Dict.get?_cons]
    split at hk
    · next h =>
      subst h; injection hk with hk; subst hk
      simp [hgk]
    · next h => rw [if_neg h]; exact ih hk

/-- C178 is false: `as_fresh_event` drops `streaming`: a streaming event's fresh copy is not streaming. -/
theorem C178_streaming_violation (again : ν → ν) (dflt : String → ν) (original : ι → Int → ν) (freshId : ι) (now : Int)
    (copyMeta : Bool) (ev : Ev ι ν ε α) (h : ev.streaming = true) :
    (asFresh again dflt original freshId now copyMeta ev).streaming ≠ ev.streaming := by
  rw [h]; simp [asFresh]

end

/-- Non-vacuity of C24: a failed event with a subclass field and a timeout. -/
example :
    let ev : Ev Nat Nat Nat Nat := 
      { id := 1, createdAt := 10, metadata := [("k", 5)], exec := ⟨.failed, some 3, none, .raised 0, some true⟩,
        timeout := some 30, fields := [("url", ⟨7, false⟩), ("secret", ⟨8, true⟩)] }
    (asFresh id (fun _ => 0) (fun i _ => i) 2 20 true ev).fields = [("url", ⟨7, false⟩), ("secret", ⟨0, true⟩)] ∧
      (asFresh id (fun _ => 0) (fun i _ => i) 2 20 true ev).metadata = [("k", 5), ("original", 1)] := by
  decide

end Verif.Event
