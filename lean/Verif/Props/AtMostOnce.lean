import Verif.Props.Executor

/-!
# C263: an executor executes an event at most once per accepted append
-/

set_option linter.unusedSectionVars false
set_option linter.unusedSimpArgs false
set_option linter.unusedVariables false

namespace Verif.Executor

open Verif.Event (Status)

variable {γ : Type} [DecidableEq γ]

/-! ### What is counted -/

/-- The number of executions of `id` that begin with the step `a`. -/
def begins (sub : γ → γ → Bool) (c : Processor.Cfg) (s : Sys γ) (a : Act γ) (id : Nat) : Nat :=
  (step sub c s a).runs.countP (fun r => r.2 == id) - s.runs.countP (fun r => r.2 == id)

/-- The number of executions of `id` that begin in a history. -/
def begun (sub : γ → γ → Bool) (c : Processor.Cfg) (id : Nat) : Sys γ → List (Act γ) → Nat
  | _, [] => 0
  | s, a :: as => begins sub c s a id + begun sub c id (step sub c s a) as

/-- The step is an `append` of `id` that stores the event (also if `QueueFullError` is raised afterwards). -/
def accepts (sub : γ → γ → Bool) (s : Sys γ) (a : Act γ) (id : Nat) : Nat :=
  match a with
  | .append ev _ => if ev.id = id ∧ (addEvent sub s.flow ev).2 = .ok () then 1 else 0
  | _ => 0

/-- How often `id` was accepted in a history. -/
def accepted (sub : γ → γ → Bool) (c : Processor.Cfg) (id : Nat) : Sys γ → List (Act γ) → Nat
  | _, [] => 0
  | s, a :: as => accepts sub s a id + accepted sub c id (step sub c s a) as

/-! ### The invariant -/

/-- Executions that may still begin. -/
def tokens (s : Sys γ) (id : Nat) : Nat :=
  match s.proc with
  | none => (listed s.flow .pending).count id
  | some p => load p id + s.backfill.count id

structure Sound (pid : Status → Nat) (s : Sys γ) : Prop where
  pre : s.proc = none → J pid s ∧ s.runs = [] ∧ s.backfill = []
  post : ∀ p, s.proc = some p → ∃ slot, Processor.Sim p slot

theorem forgetAll_sim (c : Processor.Cfg) : ∀ (ids : List Nat) (q : Processor.Sys) (slot : Nat → Processor.Slot), Processor.Sim q slot →
    ∃ slot', Processor.Sim (forgetAll c q ids) slot'
  | [], q, slot, h => ⟨slot, h⟩
  | x :: xs, q, slot, h => by
    obtain ⟨slot', h'⟩ := h.step (c := c) (.forget x)
    exact forgetAll_sim c xs _ slot' h'

theorem begins_zero {sub : γ → γ → Bool} {c : Processor.Cfg} {s : Sys γ} {a : Act γ} {id : Nat}
    (h : (step sub c s a).runs.countP (fun r => r.2 == id) ≤ s.runs.countP (fun r => r.2 == id)) : begins sub c s a id = 0 := by
  simp only [begins]
  omega

theorem Sound.stepNone {pid : Status → Nat} {s : Sys γ} (h : Sound pid s) (hn : s.proc = none) (sub : γ → γ → Bool) (c : Processor.Cfg)
    (a : Act γ) (id : Nat) : Sound pid (step sub c s a) ∧
      begins sub c s a id + tokens (step sub c s a) id ≤ tokens s id + accepts sub s a id := by
  obtain ⟨hJ, hr, hb⟩ := h.pre hn
  have hg : GentleAt s a := by
    cases a with
    | cleanup sts =>
      intro st _ _ id _
      rw [hr]
      exact ⟨by simp [waiting, hn, hb], rfl⟩
    | _ => trivial
  have hJ' := hJ.step sub c a hg
  have nop : ∀ s' : Sys γ, s' = s → step sub c s a = s' → accepts sub s a id = 0 → Sound pid (step sub c s a) ∧
      begins sub c s a id + tokens (step sub c s a) id ≤ tokens s id + accepts sub s a id := by
    intro s' h1 h2 h3
    rw [h3]
    simp only [begins, h2, h1]
    exact ⟨h, by omega⟩
  have pmap : ∀ b, ({ s with proc := s.proc.map (fun p => Processor.step c p b) } : Sys γ) = s := by
    intro b
    rw [hn]
    cases s
    simp only at hn
    rw [hn]
    rfl
  cases a with
  | append ev prio =>
    have e1 : (step sub c s (.append ev prio)).runs = s.runs ∧ (step sub c s (.append ev prio)).proc = none ∧
        (step sub c s (.append ev prio)).backfill = s.backfill := by
      simp only [step]
      split
      · exact ⟨rfl, hn, rfl⟩
      · exact ⟨rfl, by simp only [hn, Option.map_none], rfl⟩
    refine ⟨⟨fun _ => ⟨hJ', by rw [e1.1, hr], by rw [e1.2.2, hb]⟩, fun p hp => by rw [e1.2.1] at hp; cases hp⟩, ?_⟩
    rw [begins_zero (by rw [e1.1]; exact Nat.le_refl _)]
    simp only [tokens, e1.2.1, hn]
    rcases addEvent_cases hJ.eg sub ev with ⟨e, he⟩ | ⟨hke, f', he, h1, h2, h3⟩
    · simp only [step, he]
      omega
    · simp only [step, he, accepts, h3, List.count_append]
      by_cases hid : ev.id = id
      · simp [hid]
      · have : id ≠ ev.id := fun e => hid e.symm
        simp [hid, List.count_cons]
  | start =>
    obtain ⟨e1, e2⟩ := getEvents_ok hJ.eg hJ.part .pending
    refine ⟨⟨fun hp => ?_, fun p hp => hJ'.heap p hp⟩, ?_⟩
    · simp only [step, hn, e1] at hp
      cases hp
    · simp only [begins, step, hn, e1, e2, tokens, accepts]
      simp [load, Processor.init]
  | fill => exact nop s rfl (by simp only [step, hn]) rfl
  | enqPut k => exact nop _ (pmap (.enqPut k)) rfl rfl
  | forward => exact nop _ (pmap .process) rfl rfl
  | go i perm => exact nop s rfl (by simp only [step, hn]) rfl
  | cancel i => exact nop _ (pmap (.cancel i)) rfl rfl
  | finish k st => exact nop s rfl (by simp [step, hr]) rfl
  | vanish k =>
    have he : ({ s with runs := s.runs.eraseIdx k } : Sys γ) = s := by
      rw [hr]
      cases s
      simp only at hr
      rw [hr]
      rfl
    exact nop _ he rfl rfl
  | stop => exact nop _ (pmap .stop) rfl rfl
  | cleanup sts =>
    obtain ⟨f', ids, h1, h2, h3, h4⟩ := cleanup_ok sts s.flow hJ.eg hJ.part
    have e1 : (step sub c s (.cleanup sts)).proc = none := by
      simp only [step, hn, Option.map_none]
    refine ⟨⟨fun _ => ⟨hJ', hr, hb⟩, fun p hp => by rw [e1] at hp; cases hp⟩, ?_⟩
    rw [begins_zero (Nat.le_refl _)]
    simp only [tokens, e1, hn]
    simp only [step, h1, h4.lists, accepts]
    split
    · simp
    · omega

theorem Sound.stepSome {pid : Status → Nat} {s : Sys γ} (h : Sound pid s) {p : Processor.Sys} (hp : s.proc = some p) (sub : γ → γ → Bool)
    (c : Processor.Cfg) (a : Act γ) (id : Nat) : Sound pid (step sub c s a) ∧
      begins sub c s a id + tokens (step sub c s a) id ≤ tokens s id + accepts sub s a id := by
  obtain ⟨slot, hsim⟩ := h.post p hp
  have mk : ∀ (q : Processor.Sys), (step sub c s a).proc = some q → (∃ slot', Processor.Sim q slot') →
      begins sub c s a id + (load q id + (step sub c s a).backfill.count id) ≤ load p id + s.backfill.count id + accepts sub s a id →
      Sound pid (step sub c s a) ∧ begins sub c s a id + tokens (step sub c s a) id ≤ tokens s id + accepts sub s a id := by
    intro q hq hs hle
    refine ⟨⟨fun hn => (by rw [hq] at hn; cases hn), fun q' hq' => ?_⟩, ?_⟩
    · rw [hq] at hq'
      injection hq' with e
      subst e
      exact hs
    · simp only [tokens, hq, hp]
      exact hle
  have pstep : ∀ b, (step sub c s a) = { s with proc := s.proc.map (fun p => Processor.step c p b) } →
      load (Processor.step c p b) id ≤ load p id →
      Sound pid (step sub c s a) ∧ begins sub c s a id + tokens (step sub c s a) id ≤ tokens s id + accepts sub s a id := by
    intro b he hl
    refine mk (Processor.step c p b) (by rw [he, hp]; rfl) (hsim.step b) ?_
    rw [begins_zero (by rw [he]; exact Nat.le_refl _), he]
    simp only
    omega
  have nop : step sub c s a = s →
      Sound pid (step sub c s a) ∧ begins sub c s a id + tokens (step sub c s a) id ≤ tokens s id + accepts sub s a id := by
    intro he
    refine mk p (by rw [he, hp]) ⟨slot, hsim⟩ ?_
    rw [begins_zero (by rw [he]; exact Nat.le_refl _), he]
    omega
  cases a with
  | append ev prio =>
    cases he : addEvent sub s.flow ev with
    | mk f r =>
      cases r with
      | error e =>
        have e1 : step sub c s (.append ev prio) = { s with flow := f } := by simp only [step, he]
        refine mk p (by rw [e1]; exact hp) ⟨slot, hsim⟩ ?_
        rw [begins_zero (by rw [e1]; exact Nat.le_refl _), e1]
        simp only
        omega
      | ok u =>
        have e1 : step sub c s (.append ev prio) = { s with flow := f, proc := s.proc.map (fun p => enqueue c f p ev.id prio) } := by
          simp only [step, he]
        refine mk (enqueue c f p ev.id prio) (by rw [e1, hp]; rfl) (enqueue_sim hsim f ev.id prio) ?_
        rw [begins_zero (by rw [e1]; exact Nat.le_refl _), e1]
        simp only [accepts, he, and_true]
        rcases enqueue_load c f p ev.id prio with ⟨_, hl, _⟩ | ⟨_, _, hl⟩
        · rw [hl]
          omega
        · rw [hl]
          by_cases hid : ev.id = id
          · simp only [hid, if_true, true_and]
            simp only [Nat.zero_add]
            omega
          · simp only [hid, if_false]
            omega
  | start => exact nop (by simp only [step, hp])
  | fill =>
    cases hbf : s.backfill with
    | nil => exact nop (by simp only [step, hp, hbf])
    | cons x xs =>
      have e1 : step sub c s .fill =
          { s with proc := some (enqueue c s.flow p x none), backfill := if rejected p (enqueue c s.flow p x none) then [] else xs } := by
        simp only [step, hp, hbf]
      refine mk (enqueue c s.flow p x none) (by rw [e1]) (enqueue_sim hsim s.flow x none) ?_
      rw [begins_zero (by rw [e1]; exact Nat.le_refl _), e1]
      simp only [hbf, List.count_cons]
      rcases enqueue_load c s.flow p x none with ⟨hr, hl, _⟩ | ⟨hr, _, hl⟩
      · rw [if_pos hr, hl]
        simp only [List.count_nil]
        omega
      · rw [if_neg (by rw [hr]; simp), hl]
        by_cases hx : x = id
        · simp only [hx, if_true, beq_self_eq_true]
          omega
        · simp only [hx, if_false]
          omega
  | enqPut k => exact pstep (.enqPut k) rfl (Nat.le_of_eq (load_enqPut p k id))
  | forward =>
    refine pstep .process rfl ?_
    simp [Processor.step, load, List.countP_append, holds, Processor.Call.held]
  | go i perm =>
    cases hi : p.calls[i]? with
    | none => exact nop (by simp only [step, hp, hi])
    | some cl =>
      by_cases hwf : waitsFor s i cl = true
      · exact nop (by simp only [step, hp, hi, hwf, if_true])
      · have e0 : step sub c s (.go i perm) = goOn c s p i cl perm := by
          simp only [step, hp, hi]
          rw [if_neg hwf]
        cases hfo : fileOf cl.pc with
        | none =>
          have e1 : step sub c s (.go i perm) = { s with proc := some (Processor.step c p (.go i (found s.flow p) perm)) } := by
            rw [e0]
            simp only [goOn, hfo]
          refine mk _ (by rw [e1]) (hsim.step _) ?_
          rw [begins_zero (by rw [e1]; exact Nat.le_refl _), e1]
          have := (load_advance c p hsim.heap hi (found s.flow p) perm id).1
          simp only [Processor.step, hi]
          omega
        | some r =>
          obtain ⟨x, st⟩ := r
          obtain ⟨hh, hf, hfi, hst⟩ := fileOf_holds hfo
          cases hu : updateProgression s.flow x st with
          | mk f r =>
            cases r with
            | error e =>
              have e1 : step sub c s (.go i perm) = { s with flow := f, proc := some (Processor.step c p (.cancel i)) } := by
                rw [e0]
                simp only [goOn, hfo, hu]
              refine mk _ (by rw [e1]) (hsim.step _) ?_
              rw [begins_zero (by rw [e1]; exact Nat.le_refl _), e1]
              have := load_cancel c p i id
              simp only
              omega
            | ok u =>
              have e1 : step sub c s (.go i perm) =
                  { s with
                    flow := f, proc := some (Processor.step c p (.go i true perm)),
                    runs := s.runs ++ ((startOf cl.pc).map (fun x => (i, x))).toList } := by
                rw [e0]
                simp only [goOn, hfo, hu]
              refine mk _ (by rw [e1]) (hsim.step _) ?_
              have hl := (load_advance c p hsim.heap hi true perm id).1
              have hbeg : begins sub c s (.go i perm) id ≤ if filed cl.pc id then 1 else 0 := by
                simp only [begins, e1, List.countP_append]
                rcases hst with ⟨_, h6⟩ | ⟨_, h6⟩
                · simp only [h6, Option.map_some, Option.toList_some, List.countP_singleton]
                  by_cases e : id = x
                  · subst e
                    rw [hf]
                    simp
                  · have e' : ¬ x = id := fun h => e h.symm
                    simp [e']
                · simp only [h6, Option.map_none, Option.toList_none, List.countP_nil]
                  omega
              rw [e1]
              simp only [Processor.step, hi]
              omega
  | cancel i => exact pstep (.cancel i) rfl (load_cancel c p i id)
  | finish k st =>
    cases hk : s.runs[k]? with
    | none => exact nop (by simp only [step, hk])
    | some r =>
      have e1 : step sub c s (.finish k st) = { s with flow := (updateProgression s.flow r.2 st).1, runs := s.runs.eraseIdx k } := by
        simp only [step, hk]
      refine mk p (by rw [e1]; exact hp) ⟨slot, hsim⟩ ?_
      rw [begins_zero (by rw [e1]; exact List.Sublist.countP_le (List.eraseIdx_sublist _ _)), e1]
      simp only
      omega
  | vanish k =>
    refine mk p hp ⟨slot, hsim⟩ ?_
    have e1 : step sub c s (.vanish k) = { s with runs := s.runs.eraseIdx k } := rfl
    rw [begins_zero (by rw [e1]; exact List.Sublist.countP_le (List.eraseIdx_sublist _ _)), e1]
    simp only
    omega
  | stop => exact pstep .stop rfl (Nat.le_refl _)
  | cleanup sts =>
    refine mk (forgetAll c p (cleanup s.flow sts).2.1) (by simp only [step, hp, Option.map_some])
      (forgetAll_sim c _ p slot hsim) ?_
    rw [begins_zero (Nat.le_refl _), (load_forgetAll c _ p id).1]
    simp only [step]
    omega

theorem Sound.step {pid : Status → Nat} {s : Sys γ} (h : Sound pid s) (sub : γ → γ → Bool) (c : Processor.Cfg) (a : Act γ) (id : Nat) :
    Sound pid (step sub c s a) ∧ begins sub c s a id + tokens (step sub c s a) id ≤ tokens s id + accepts sub s a id := by
  cases hp : s.proc with
  | none => exact h.stepNone hp sub c a id
  | some p => exact h.stepSome hp sub c a id

theorem Sound.run {pid : Status → Nat} (sub : γ → γ → Bool) (c : Processor.Cfg) (id : Nat) : ∀ (as : List (Act γ)) {s : Sys γ},
    Sound pid s → begun sub c id s as + tokens (run sub c s as) id ≤ tokens s id + accepted sub c id s as
  | [], s, _ => by simp [begun, accepted, Executor.run]
  | a :: as, s, h => by
    obtain ⟨h1, h2⟩ := h.step sub c a id
    have h3 := Sound.run sub c id as h1
    simp only [begun, accepted, Executor.run, List.foldl_cons] at h3 ⊢
    omega

/-! ### C263 -/

/-- C263: in every history of an executor - appends, starts, overlapping `process()` calls, cancellations, denials, clean-ups of any status at
any moment - an event is executed at most as often as it was accepted by `append`; an event accepted once is executed at most once. -/
theorem C263_at_most_once {pid : Status → Nat} (inj : ∀ a b, pid a = pid b → a = b) (cls : List γ) (strict : Bool)
    (sub : γ → γ → Bool) (c : Processor.Cfg) (as : List (Act γ)) (id : Nat) :
    begun sub c id (init pid cls strict) as ≤ accepted sub c id (init pid cls strict) as := by
  have key : ∀ f : EFlow γ, J pid ({ flow := f } : Sys γ) → listed f .pending = [] →
      begun sub c id ({ flow := f } : Sys γ) as ≤ accepted sub c id ({ flow := f } : Sys γ) as := by
    intro f hJ hl
    have h0 : Sound pid ({ flow := f } : Sys γ) := ⟨fun _ => ⟨hJ, rfl, rfl⟩, fun p hp => (by cases hp)⟩
    have h1 := h0.run sub c id as
    have h2 : tokens ({ flow := f } : Sys γ) id = 0 := by
      simp only [tokens, hl, List.count_nil]
    omega
  have hJ := j_init (γ := γ) inj cls strict
  have hl := (init_good (γ := γ) inj cls strict).2.2 .pending
  unfold init at hJ ⊢
  exact key _ hJ hl

/-- Non-vacuity: of two events that were appended once, both are executed, one after a denial. -/
example :
    let as : List (Act Unit) := [.append (ev0 1 10) none, .start, .fill, .append (ev0 2 5) none, .append (ev0 2 5) none, .enqPut 0, .enqPut 0,
      .forward, .go 0 .grant, .go 0 .grant, .go 0 .grant, .go 0 .grant, .finish 0 .failed, .go 0 .grant, .go 0 .grant, .go 0 .grant, .go 0 .grant]
    begun (fun _ _ => true) cfg0 1 (init pid0 [()] false) as = 1 ∧ begun (fun _ _ => true) cfg0 2 (init pid0 [()] false) as = 1 ∧
      accepted (fun _ _ => true) cfg0 2 (init pid0 [()] false) as = 1 := by
  refine ⟨by decide, by decide, by decide⟩

end Verif.Executor
