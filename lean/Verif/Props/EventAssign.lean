import Verif.Model.EventAssign
import Verif.Props.Event

/-!
# C281: assigning the status of an event

`starts` (of `Verif.Props.Event`) lists the starts of the body in the log.
-/

set_option linter.unusedSectionVars false
set_option linter.unusedSimpArgs false
set_option linter.unusedVariables false

namespace Verif.Event

variable {τ ε α : Type} [DecidableEq τ]

/-- The value stands for `PENDING`. -/
def Value.Pending (v : Value) : Prop := v = .member .pending ∨ v = .text "pending"

instance : DecidablePred Value.Pending := fun v => inferInstanceAs (Decidable (_ ∨ _))

/-- The move sets the status back to `PENDING`. -/
def Move.resets : Move τ ε α → Bool
  | .act _ => false
  | .assign v => decide v.Pending

/-- How often a history sets the status back to `PENDING`. -/
def resets (ms : List (Move τ ε α)) : Nat := ms.countP Move.resets

/-- The move is no assignment. -/
def Move.isAct : Move τ ε α → Bool
  | .act _ => true
  | .assign _ => false

/-- Some call is inside the body. -/
def Running (s : Sys τ ε α) : Prop := ∃ t st, s.calls.get? t = some (.body st)

theorem assigned_pending_iff (v : Value) : assigned v = .ok .pending ↔ v.Pending := by
  cases v with
  | member s => simp [assigned, Value.Pending]
  | other => simp [assigned, Value.Pending]
  | text s =>
    simp only [assigned, Value.Pending, reduceCtorEq, false_or, Value.text.injEq]
    constructor
    · intro h
      cases hs : Status.ofText s with
      | none => simp [hs] at h
      | some x =>
        simp only [hs, Except.ok.injEq] at h
        subst h
        unfold Status.ofText at hs
        repeat' split at hs
        all_goals first
          | assumption
          | simp at hs
    · rintro rfl
      rfl

/-- One, if the status is `PENDING`. -/
def ready (s : Sys τ ε α) : Nat := if s.exec.status = .pending then 1 else 0

theorem ready_le (s : Sys τ ε α) : ready s ≤ 1 := by unfold ready; split <;> omega

theorem handle_status (heap : ε → ExcObj ε) (x : Execution ε α) (o : Outcome ε α) :
    (handle heap x o).1.status = .completed ∨ (handle heap x o).1.status = .cancelled ∨ (handle heap x o).1.status = .failed ∨
    (handle heap x o).1.status = x.status := by
  cases o with
  | ret v => simp [handle, onReturn]
  | deadline => simp [handle, onTimeout]
  | raise e =>
    simp only [handle]
    split
    · simp [onTimeout]
    · split
      · simp [onException]
      · split <;> simp [onCancel]

theorem settle_ready (heap : ε → ExcObj ε) (x : Execution ε α) (el : Int) (o : Outcome ε α) (h : x.status ≠ .pending) :
    (settle heap x el o).1.status ≠ .pending := by
  have := handle_status heap x o
  simp only [settle]
  rcases this with h' | h' | h' | h' <;> rw [h']
  · simp
  · simp
  · simp
  · exact h

theorem step_bound (heap : ε → ExcObj ε) (s : Sys τ ε α) (a : Act τ ε α) :
    (starts (step heap s a).log).length + ready (step heap s a) ≤ (starts s.log).length + ready s := by
  cases a with
  | call t => simp only [step]; split <;> exact Nat.le_refl _
  | acquire t => simp only [step]; split <;> exact Nat.le_refl _
  | cancelWait t e =>
    simp only [step]
    split
    · simp [ready]
    · simp [ready]
    · exact Nat.le_refl _
  | enter t now =>
    simp only [step]
    split
    · split
      · simp [ready]
      · next hs =>
        have hs : s.exec.status = .pending := by simpa using hs
        simp [ready, hs]
    · exact Nat.le_refl _
  | finish t now o =>
    simp only [step]
    split
    · next st h =>
      simp only [starts_append, starts_fin, List.append_nil]
      by_cases hp : s.exec.status = .pending
      · have : ready s = 1 := by simp [ready, hp]
        rw [this]
        exact Nat.add_le_add_left (ready_le _) _
      · have := settle_ready heap s.exec (now - st) o hp
        simp [ready, hp, this]
    · exact Nat.le_refl _

theorem move_bound (heap : ε → ExcObj ε) (s : Sys τ ε α) (m : Move τ ε α) :
    (starts (move heap s m).log).length + ready (move heap s m) ≤ (starts s.log).length + ready s + [m].countP Move.resets := by
  cases m with
  | act a =>
    have := step_bound heap s a
    simp only [move, List.countP_cons, Move.resets, List.countP_nil]
    simpa using this
  | assign v =>
    cases hv : assigned v with
    | error e => simp [move, assign, hv]
    | ok x =>
      by_cases hx : x = .pending
      · subst hx
        have := (assigned_pending_iff v).mp hv
        simp only [move, assign, hv, List.countP_cons, Move.resets, List.countP_nil, this, decide_true, if_true]
        have hl := ready_le (s := move heap s (.assign v))
        simp only [move, assign, hv] at hl
        omega
      · have : ready ({ s with exec := { s.exec with status := x } } : Sys τ ε α) = 0 := by simp [ready, hx]
        simp only [move, assign, hv, this]
        omega

theorem moves_bound (heap : ε → ExcObj ε) : ∀ (ms : List (Move τ ε α)) (s : Sys τ ε α),
    (starts (moves heap s ms).log).length + ready (moves heap s ms) ≤ (starts s.log).length + ready s + resets ms
  | [], s => by simp [moves, resets]
  | m :: ms, s => by
    have h1 := moves_bound heap ms (move heap s m)
    have h2 := move_bound heap s m
    have h3 : resets (m :: ms) = resets ms + [m].countP Move.resets := by
      simp only [resets, List.countP_cons, List.countP_nil]; omega
    have h4 : moves heap s (m :: ms) = moves heap (move heap s m) ms := rfl
    rw [h3, h4]; omega

/-- C281: whatever is assigned between and during the calls, the body starts at most once more than the status was set back to
`PENDING`; without such an assignment, at most once. -/
theorem C281_starts_bounded (heap : ε → ExcObj ε) (ms : List (Move τ ε α)) :
    (starts (moves heap ({} : Sys τ ε α) ms).log).length ≤ 1 + resets ms := by
  have h := moves_bound heap ms ({} : Sys τ ε α)
  have h1 : ready ({} : Sys τ ε α) = 1 := rfl
  have h2 : (starts ({} : Sys τ ε α).log).length = 0 := rfl
  omega

/-- Lock and calls agree. -/
structure Sane (s : Sys τ ε α) : Prop where
  wf : s.calls.WF
  lock : LockOK s

theorem sane_init : Sane ({} : Sys τ ε α) := ⟨List.nodup_nil, by intro t; simp⟩

theorem Sane.step {s : Sys τ ε α} (h : Sane s) (heap : ε → ExcObj ε) (a : Act τ ε α) : Sane (step heap s a) := by
  cases a with
  | call t =>
    simp only [Event.step]
    split
    · exact h
    · next hn =>
      refine ⟨Dict.set_wf h.wf _ _, ?_⟩
      intro u
      simp only [Dict.get?_set]
      rw [← h.lock u]
      by_cases hu : t = u
      · subst hu; simp [hn]
      · simp [hu]
  | acquire t =>
    simp only [Event.step]
    split
    · next hw hl =>
      refine ⟨Dict.set_wf h.wf _ _, ?_⟩
      intro u
      simp only [Dict.get?_set]
      by_cases hu : t = u
      · subst hu; simp
      · simp only [if_neg hu]
        rw [h.lock u, hl]; simp [hu]
    · exact h
  | cancelWait t e =>
    simp only [Event.step]
    split
    · next hw =>
      refine ⟨Dict.del_wf h.wf _, ?_⟩
      intro u
      simp only [Dict.get?_del h.wf]
      rw [← h.lock u]
      by_cases hu : t = u
      · subst hu; simp [hw]
      · simp [hu]
    · next hw =>
      have hl := (h.lock t).1 ⟨_, hw, by simp⟩
      exact ⟨Dict.del_wf h.wf _, h.lock.release h.wf hl _ rfl rfl⟩
    · exact h
  | enter t now =>
    simp only [Event.step]
    split
    · next hw =>
      have hl := (h.lock t).1 ⟨_, hw, by simp⟩
      split
      · exact ⟨Dict.del_wf h.wf _, h.lock.release h.wf hl _ rfl rfl⟩
      · refine ⟨Dict.set_wf h.wf _ _, ?_⟩
        intro u
        simp only [Dict.get?_set]
        rw [← h.lock u]
        by_cases hu : t = u
        · subst hu; simp [hw]
        · simp [hu]
    · exact h
  | finish t now o =>
    simp only [Event.step]
    split
    · next hw =>
      have hl := (h.lock t).1 ⟨_, hw, by simp⟩
      exact ⟨Dict.del_wf h.wf _, h.lock.release h.wf hl _ rfl rfl⟩
    · exact h

theorem Sane.move {s : Sys τ ε α} (h : Sane s) (heap : ε → ExcObj ε) (m : Move τ ε α) : Sane (move heap s m) := by
  cases m with
  | act a => exact h.step heap a
  | assign v =>
    cases hv : assigned v with
    | error e => simp only [Event.move, assign, hv]; exact h
    | ok x => simp only [Event.move, assign, hv]; exact ⟨h.wf, h.lock⟩

theorem Sane.moves (heap : ε → ExcObj ε) : ∀ (ms : List (Move τ ε α)) {s : Sys τ ε α}, Sane s → Sane (moves heap s ms)
  | [], _, h => h
  | m :: ms, _, h => Sane.moves heap ms (h.move heap m)

/-- C281: whatever is assigned, the body never runs twice at the same time. -/
theorem C281_no_overlap (heap : ε → ExcObj ε) (ms : List (Move τ ε α)) (t u : τ) (st su : Int)
    (ht : (moves heap ({} : Sys τ ε α) ms).calls.get? t = some (.body st))
    (hu : (moves heap ({} : Sys τ ε α) ms).calls.get? u = some (.body su)) : t = u := by
  have h := sane_init.moves heap ms
  have h1 := (h.lock t).1 ⟨_, ht, by simp⟩
  have h2 := (h.lock u).1 ⟨_, hu, by simp⟩
  rw [h1] at h2
  exact Option.some.inj h2

/-- What is kept while nothing is running and the status is not `PENDING`. -/
theorem quiet_step (heap : ε → ExcObj ε) {s : Sys τ ε α} (hs : Sane s) (hn : ¬ Running s) (hp : s.exec.status ≠ .pending) (a : Act τ ε α) :
    ¬ Running (step heap s a) ∧ (step heap s a).exec = s.exec ∧ starts (step heap s a).log = starts s.log := by
  have hset : ∀ (t : τ) (pc : Pc), (∀ st, pc ≠ .body st) → ¬ ∃ u st, (s.calls.set t pc).get? u = some (.body st) := by
    rintro t pc hpc ⟨u, st, h⟩
    rw [Dict.get?_set] at h
    split at h
    · exact hpc st (Option.some.inj h)
    · exact hn ⟨u, st, h⟩
  have hdel : ∀ (t : τ), ¬ ∃ u st, (s.calls.del t).get? u = some (.body st) := by
    rintro t ⟨u, st, h⟩
    rw [Dict.get?_del hs.wf] at h
    split at h
    · cases h
    · exact hn ⟨u, st, h⟩
  cases a with
  | call t =>
    simp only [step]
    split
    · exact ⟨hn, rfl, rfl⟩
    · exact ⟨hset t _ (by simp), rfl, rfl⟩
  | acquire t =>
    simp only [step]
    split
    · exact ⟨hset t _ (by simp), rfl, rfl⟩
    · exact ⟨hn, rfl, rfl⟩
  | cancelWait t e =>
    simp only [step]
    split
    · exact ⟨hdel t, rfl, by simp⟩
    · exact ⟨hdel t, rfl, by simp⟩
    · exact ⟨hn, rfl, rfl⟩
  | enter t now =>
    simp only [step]
    split
    · rw [if_pos hp]
      exact ⟨hdel t, rfl, by simp⟩
    · exact ⟨hn, rfl, rfl⟩
  | finish t now o =>
    simp only [step]
    split
    · next h => exact absurd ⟨t, _, h⟩ hn
    · exact ⟨hn, rfl, rfl⟩

theorem quiet_moves (heap : ε → ExcObj ε) : ∀ (ms : List (Move τ ε α)) {s : Sys τ ε α}, Sane s → ¬ Running s → s.exec.status ≠ .pending →
    (∀ m ∈ ms, m.isAct = true) → (moves heap s ms).exec = s.exec ∧ starts (moves heap s ms).log = starts s.log
  | [], _, _, _, _, _ => ⟨rfl, rfl⟩
  | .act a :: ms, s, hs, hn, hp, hm => by
    obtain ⟨h1, h2, h3⟩ := quiet_step heap hs hn hp a
    have h4 := quiet_moves heap ms (hs.step heap a) h1 (by rw [h2]; exact hp) (fun m hmm => hm m (List.mem_cons_of_mem _ hmm))
    rw [h2, h3] at h4
    exact h4
  | .assign v :: ms, s, hs, hn, hp, hm => absurd (hm _ List.mem_cons_self) (by simp [Move.isAct])

/-- C281, exactly when an assigned status lasts: after any history, assigning a status other than `PENDING` lasts until the next
assignment, whatever calls of `invoke` do, if and only if the body is not running at that moment; then the body does not start either. -/
theorem C281_exact_partial (heap : ε → ExcObj ε) [Inhabited α] (hist : List (Move τ ε α)) (v : Value) (x : Status) (hv : assigned v = .ok x)
    (hx : x ≠ .pending) :
    ((∀ ms : List (Move τ ε α), (∀ m ∈ ms, m.isAct = true) →
      (moves heap (moves heap ({} : Sys τ ε α) hist) (.assign v :: ms)).exec.status = x ∧
      starts (moves heap (moves heap ({} : Sys τ ε α) hist) (.assign v :: ms)).log = starts (moves heap ({} : Sys τ ε α) hist).log) ↔
    ¬ Running (moves heap ({} : Sys τ ε α) hist)) := by
  have hsane := sane_init.moves heap hist
  generalize moves heap ({} : Sys τ ε α) hist = s at hsane
  have hm : ∀ ms, moves heap s (.assign v :: ms) = moves heap { s with exec := { s.exec with status := x } } ms := by
    intro ms; simp [moves, move, assign, hv]
  constructor
  · rintro h ⟨t, st, ht⟩
    by_cases hc : x = .completed
    · have := (h [.act (.finish t 0 .deadline)] (by simp [Move.isAct])).1
      rw [hm] at this
      simp [moves, move, step, ht, settle, handle, onTimeout] at this
      rw [← this] at hc; cases hc
    · have := (h [.act (.finish t 0 (.ret default))] (by simp [Move.isAct])).1
      rw [hm] at this
      simp [moves, move, step, ht, settle, handle, onReturn] at this
      exact hc this.symm
  · intro hn ms hms
    rw [hm]
    have := quiet_moves heap ms (s := { s with exec := { s.exec with status := x } }) ⟨hsane.wf, hsane.lock⟩ hn hx hms
    rw [this.1, this.2]
    exact ⟨rfl, rfl⟩

/-- A value that is neither a status nor the text of one raises `ValueError` and changes nothing; any other assignment changes the status
alone. -/
theorem C281_assignment (s : Sys τ ε α) (v : Value) :
    ((∃ x, assigned v = .ok x ∧ assign s v = ({ s with exec := { s.exec with status := x } }, .ok ())) ∨
     (assign s v = (s, .error .valueError) ∧ (∀ x, v ≠ .member x) ∧
       ∀ t, v = .text t → t ∉ ["pending", "processing", "completed", "failed", "cancelled", "skipped", "aborted"])) := by
  cases v with
  | member x => exact Or.inl ⟨x, rfl, rfl⟩
  | other => exact Or.inr ⟨rfl, nofun, nofun⟩
  | text t =>
    cases h : Status.ofText t with
    | some x => exact Or.inl ⟨x, by simp [assigned, h], by simp [assign, assigned, h]⟩
    | none =>
      refine Or.inr ⟨by simp [assign, assigned, h], nofun, ?_⟩
      intro t' ht
      cases ht
      intro hmem
      simp only [List.mem_cons, List.not_mem_nil, or_false] at hmem
      rcases hmem with rfl | rfl | rfl | rfl | rfl | rfl | rfl <;> exact absurd h (by decide)

/-- A status assigned while the body runs is overwritten when it ends: an event that was aborted ends `COMPLETED`. -/
theorem C281_overwritten_violation (heap : Nat → ExcObj Nat) :
    (moves (τ := Nat) (α := Nat) heap {} [.act (.call 0), .act (.acquire 0), .act (.enter 0 0), .assign (.text "aborted"),
      .act (.finish 0 1 (.ret 7))]).exec.status = .completed := rfl

/-- A finished event set back to `PENDING` runs again, and until then shows the response of the first run. -/
theorem C281_second_run_violation (heap : Nat → ExcObj Nat) :
    starts (moves (τ := Nat) (α := Nat) heap {} [.act (.call 0), .act (.acquire 0), .act (.enter 0 0), .act (.finish 0 1 (.ret 7)),
      .assign (.member .pending), .act (.call 1), .act (.acquire 1), .act (.enter 1 2)]).log = [0, 1] ∧
    (moves (τ := Nat) (α := Nat) heap {} [.act (.call 0), .act (.acquire 0), .act (.enter 0 0), .act (.finish 0 1 (.ret 7)),
      .assign (.member .pending)]).exec.response = some 7 := ⟨rfl, rfl⟩

/-- Aborting a waiting event: the call that holds the lock returns without running the body. -/
example (heap : Nat → ExcObj Nat) : starts (moves (τ := Nat) (α := Nat) heap {} [.act (.call 0), .act (.acquire 0), .assign (.text "aborted"),
    .act (.enter 0 5), .act (.call 1), .act (.acquire 1), .act (.enter 1 6)]).log = [] := rfl

/-- C281: the timeouts accepted are exactly none and the positive finite ones, and they are kept as they are. -/
theorem C281_timeout (t : Option Secs) :
    (∀ r, checkTimeout t = .ok r ↔ r = t ∧ (t = none ∨ ∃ n, 0 < n ∧ t = some (.num n))) ∧
    (∀ e, checkTimeout t = .error e → e = .valueError) := by
  cases t with
  | none => simp [checkTimeout]; intro r; exact ⟨fun h => h.symm, fun h => h.symm⟩
  | some t =>
    cases t with
    | inf b => simp [checkTimeout]
    | nan => simp [checkTimeout]
    | num n =>
      by_cases h : n ≤ 0
      · simp only [checkTimeout, if_pos h]
        refine ⟨fun r => ⟨nofun, ?_⟩, fun e he => (Except.error.inj he).symm⟩
        rintro ⟨_, h' | ⟨m, hm, h'⟩⟩
        · cases h'
        · cases h'; omega
      · simp only [checkTimeout, if_neg h]
        refine ⟨fun r => ⟨fun hr => ⟨(Except.ok.inj hr).symm, Or.inr ⟨n, by omega, rfl⟩⟩, fun hr => by rw [hr.1]⟩, nofun⟩

end Verif.Event
