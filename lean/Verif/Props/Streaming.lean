import Verif.Model.Streaming
import Verif.Props.AtMostOnce

/-!
# C32 (events that are lost are lost for good), C264 (ended events stay ended), C262 (streaming events)
-/

set_option linter.unusedSectionVars false
set_option linter.unusedSimpArgs false
set_option linter.unusedVariables false

namespace Verif.Executor

open Verif.Event (Status)

variable {γ : Type} [DecidableEq γ]

/-- Listed under `st`, and neither queued nor about to be queued nor in the hands of a `process()` call nor executing. -/
structure Settled (pid : Status → Nat) (s : Sys γ) (st : Status) (id : Nat) : Prop where
  inv : J pid s
  proc : s.proc ≠ none
  here : id ∈ listed s.flow st
  idle : waiting s id = 0
  noRun : s.runs.countP (isRun id) = 0

/-- Not a clean-up of events with status `st`. -/
def Spares (st : Status) : Act γ → Prop
  | .cleanup sts => st ∉ sts
  | _ => True

theorem mem_update {f f' : EFlow γ} {x id : Nat} {st : Status}
    (h : ∀ s, listed f' s = (listed f s).erase x ++ (if s = st then [x] else [])) (hne : x ≠ id) {s : Status} (hm : id ∈ listed f s) :
    id ∈ listed f' s := by
  rw [h, List.mem_append]
  exact Or.inl ((List.mem_erase_of_ne (fun e => hne e.symm)).2 hm)

theorem waiting_zero {s : Sys γ} {p : Processor.Sys} (hp : s.proc = some p) {id : Nat} :
    waiting s id = 0 ↔ load p id = 0 ∧ s.backfill.count id = 0 := by
  simp only [waiting, hp]
  omega

theorem Settled.step {pid : Status → Nat} {s : Sys γ} {st₀ : Status} {id : Nat} (h : Settled pid s st₀ id) (sub : γ → γ → Bool) (c : Processor.Cfg)
    (a : Act γ) (hg : Gentle a) (hk₀ : Spares st₀ a) : Settled pid (step sub c s a) st₀ id := by
  have hJ := h.inv.step sub c a (hg.at s)
  obtain ⟨p, hp⟩ : ∃ p, s.proc = some p := by
    cases hp : s.proc with
    | none => exact absurd hp h.proc
    | some p => exact ⟨p, rfl⟩
  obtain ⟨hl, hb⟩ := (waiting_zero hp).1 h.idle
  obtain ⟨q, _, hq, _⟩ := proc_step sub c s a hp
  have main : (∀ q, (Executor.step sub c s a).proc = some q → load q id = 0) ∧ (Executor.step sub c s a).backfill.count id = 0 ∧
      id ∈ listed (Executor.step sub c s a).flow st₀ ∧ (Executor.step sub c s a).runs.countP (isRun id) = 0 := by
    have pstep : ∀ b, load (Processor.step c p b) id = 0 →
        (∀ q, s.proc.map (fun p => Processor.step c p b) = some q → load q id = 0) ∧ s.backfill.count id = 0 ∧
          id ∈ listed s.flow st₀ ∧ s.runs.countP (isRun id) = 0 := by
      intro b hb'
      refine ⟨?_, hb, h.here, h.noRun⟩
      intro q hq
      rw [hp] at hq
      injection hq with hq
      subst hq
      exact hb'
    have same : (∀ q, s.proc = some q → load q id = 0) ∧ s.backfill.count id = 0 ∧ id ∈ listed s.flow st₀ ∧
        s.runs.countP (isRun id) = 0 := by
      refine ⟨?_, hb, h.here, h.noRun⟩
      intro q hq
      rw [hp] at hq
      injection hq with hq
      subst hq
      exact hl
    have less : ∀ k, (s.runs.eraseIdx k).countP (isRun id) = 0 := by
      intro k
      have := List.Sublist.countP_le (p := isRun id) (List.eraseIdx_sublist s.runs k)
      have := h.noRun
      omega
    cases a with
    | append ev prio =>
      rcases addEvent_cases h.inv.eg sub ev with ⟨e, he⟩ | ⟨hke, f', he, h1, h2, h3⟩
      · simp only [Executor.step, he]
        exact same
      · have hne : ev.id ≠ id := by
          intro he
          have := h.inv.part.mem h.here
          rw [h.inv.eg.good.piles.items.mem_iff] at this
          rw [he] at hke
          exact hke this
        simp only [Executor.step, he]
        refine ⟨?_, hb, ?_, h.noRun⟩
        · intro q hq
          rw [hp] at hq
          injection hq with hq
          subst hq
          rcases enqueue_load c f' p ev.id prio with ⟨_, hl', _⟩ | ⟨_, _, hl'⟩
          · rw [hl', hl]
          · rw [hl', hl, if_neg hne]
        · rw [h3]
          simp [h.here]
    | start =>
      simp only [Executor.step, hp]
      rw [hp] at same
      exact same
    | fill =>
      simp only [Executor.step, hp]
      cases hbf : s.backfill with
      | nil =>
        simp only
        exact ⟨same.1, by rw [hbf]; rfl, same.2.2⟩
      | cons x xs =>
        simp only
        rw [hbf, List.count_cons] at hb
        have hne : x ≠ id := by
          intro he
          rw [he] at hb
          simp at hb
        refine ⟨?_, ?_, h.here, h.noRun⟩
        · intro q hq
          injection hq with hq
          subst hq
          rcases enqueue_load c s.flow p x none with ⟨_, hl', _⟩ | ⟨_, _, hl'⟩
          · rw [hl', hl]
          · rw [hl', hl, if_neg hne]
        · split
          · rfl
          · omega
    | enqPut k => exact pstep _ (by rw [show Processor.step c p (.enqPut k) = Processor.enqPut p k from rfl, load_enqPut]; exact hl)
    | forward =>
      refine pstep _ ?_
      have : load (Processor.step c p .process) id = load p id := by
        simp [Processor.step, load, List.countP_append, holds, Processor.Call.held]
      rw [this]
      exact hl
    | go i perm =>
      simp only [Executor.step, hp]
      cases hi : p.calls[i]? with
      | none =>
        rw [hp] at same
        simp only [hp]
        exact same
      | some cl =>
        simp only
        split
        · rw [hp] at same
          simp only [hp]
          exact same
        · obtain ⟨slot, hsim⟩ := h.inv.heap p hp
          unfold goOn
          cases hfo : fileOf cl.pc with
          | none =>
            simp only
            refine ⟨?_, hb, h.here, h.noRun⟩
            intro q hq
            injection hq with hq
            subst hq
            have := (load_advance c p hsim.heap hi (found s.flow p) perm id).1
            simp only [Processor.step, hi]
            omega
          | some r =>
            obtain ⟨x, st⟩ := r
            obtain ⟨hh, _, _, hst⟩ := fileOf_holds hfo
            have hne : x ≠ id := by
              intro he
              have := waiting_pos hi hh
              rw [he] at this
              omega
            obtain ⟨f', h1, _, _, h4⟩ := update_spec h.inv.eg x st
            simp only [h1]
            refine ⟨?_, hb, mem_update h4 hne h.here, ?_⟩
            · intro q hq
              injection hq with hq
              subst hq
              have := (load_advance c p hsim.heap hi true perm id).1
              simp only [Processor.step, hi]
              omega
            · rw [List.countP_append, h.noRun]
              rcases hst with ⟨_, h6⟩ | ⟨_, h6⟩
              · simp [h6, isRun, hne]
              · simp [h6]
    | cancel i => exact pstep _ (by have := load_cancel c p i id; omega)
    | finish k st =>
      simp only [Executor.step]
      cases hk : s.runs[k]? with
      | none => exact same
      | some r =>
        simp only
        have hne : r.2 ≠ id := by
          intro he
          have h0 := h.noRun
          rw [List.countP_eq_zero] at h0
          exact h0 r (List.mem_of_getElem? hk) (by simp [isRun, he])
        obtain ⟨f', h1, _, _, h4⟩ := update_spec h.inv.eg r.2 st
        rw [h1]
        exact ⟨same.1, hb, mem_update h4 hne h.here, less k⟩
    | vanish k => exact ⟨same.1, hb, h.here, less k⟩
    | stop => exact pstep _ hl
    | cleanup sts =>
      simp only [Executor.step]
      obtain ⟨f', ids, h1, h2, h3, h4⟩ := cleanup_ok sts s.flow h.inv.eg h.inv.part
      rw [h1]
      simp only
      refine ⟨?_, hb, ?_, h.noRun⟩
      · intro q hq
        rw [hp] at hq
        injection hq with hq
        subst hq
        rw [(load_forgetAll c ids p id).1]
        exact hl
      · rw [h4.lists, if_neg hk₀]
        exact h.here
  refine ⟨hJ, by rw [hq]; simp, main.2.2.1, ?_, main.2.2.2⟩
  rw [waiting_zero hq]
  exact ⟨main.1 q hq, main.2.1⟩

theorem Settled.run {pid : Status → Nat} {st₀ : Status} {id : Nat} (sub : γ → γ → Bool) (c : Processor.Cfg) :
    ∀ (as : List (Act γ)) {s : Sys γ}, Settled pid s st₀ id → (∀ a ∈ as, Gentle a) → (∀ a ∈ as, Spares st₀ a) →
      Settled pid (run sub c s as) st₀ id
  | [], _, h, _, _ => h
  | a :: as, s, h, hg, hk => Settled.run sub c as (h.step sub c a (hg a (by simp)) (hk a (by simp))) (fun b hb => hg b (by simp [hb]))
      (fun b hb => hk b (by simp [hb]))

theorem Settled.none {pid : Status → Nat} {s : Sys γ} {st₀ : Status} {id : Nat} (h : Settled pid s st₀ id) : ∀ r ∈ s.runs, r.2 ≠ id := by
  intro r hr
  have := List.countP_eq_zero.1 h.noRun r hr
  simpa [isRun] using this

theorem Gentle.keeps {a : Act γ} (h : Gentle a) : Spares .pending a ∧ Spares .processing a := by
  cases a with
  | cleanup sts => exact h
  | _ => exact ⟨trivial, trivial⟩

/-- An event listed as pending is not executing. -/
theorem J.pendingNoRun {pid : Status → Nat} {s : Sys γ} (h : J pid s) {id : Nat} (hm : id ∈ listed s.flow .pending) :
    s.runs.countP (isRun id) = 0 := by
  have h1 := h.runs id
  have h2 : id ∉ listed s.flow .processing := fun hp => by
    have := h.part.unique hp hm
    cases this
  rw [List.count_eq_zero_of_not_mem h2] at h1
  omega

/-- An executing event is not waiting, is listed as processing, and executes once. -/
theorem J.running {pid : Status → Nat} {s : Sys γ} (h : J pid s) {k i id : Nat} (hk : s.runs[k]? = some (i, id)) :
    id ∈ listed s.flow .processing ∧ waiting s id = 0 ∧ (s.runs.eraseIdx k).countP (isRun id) = 0 := by
  have h0 := countP_eraseIdx (isRun id) hk
  have e : isRun id (i, id) = true := by simp [isRun]
  rw [e] at h0
  simp only [if_true] at h0
  have h1 := h.runs id
  have hm : id ∈ listed s.flow .processing := List.count_pos_iff.1 (by omega)
  have h3 := List.nodup_iff_count.1 (h.part.nodup .processing) id
  have h4 := h.pend id
  have h5 : id ∉ listed s.flow .pending := fun hp => by
    have := h.part.unique hp hm
    cases this
  rw [List.count_eq_zero_of_not_mem h5] at h4
  exact ⟨hm, by omega, by omega⟩

theorem runs_proc {pid : Status → Nat} (inj : ∀ a b, pid a = pid b → a = b) (cls : List γ) (strict : Bool)
    (sub : γ → γ → Bool) (c : Processor.Cfg) (as : List (Act γ)) {k i id : Nat}
    (hk : (run sub c (init pid cls strict) as).runs[k]? = some (i, id)) : (run sub c (init pid cls strict) as).proc ≠ none := by
  have key : ∀ (as : List (Act γ)) (s : Sys γ), Sound pid s → Sound pid (run sub c s as) := by
    intro as
    induction as with
    | nil => intro s h; exact h
    | cons a as ih => intro s h; exact ih _ (h.step sub c a id).1
  have h0 : Sound pid (init pid cls strict) := by
    have hJ := j_init (γ := γ) inj cls strict
    unfold init at hJ ⊢
    exact ⟨fun _ => ⟨hJ, rfl, rfl⟩, fun p hp => (by cases hp)⟩
  intro hn
  have := ((key as _ h0).pre hn).2.1
  rw [this] at hk
  simp at hk

/-! ## C264 -/

/-- C264: an event that has ended is listed under the status it ended with and never executed again, whatever happens later, until the events
of this status are cleaned up. -/
theorem C264_settled {pid : Status → Nat} (inj : ∀ a b, pid a = pid b → a = b) (cls : List γ) (strict : Bool)
    (sub : γ → γ → Bool) (c : Processor.Cfg) (as : List (Act γ)) (hg : ∀ a ∈ as, Gentle a) (k i id : Nat)
    (hk : (run sub c (init pid cls strict) as).runs[k]? = some (i, id)) (st : Status) (bs : List (Act γ)) (hg' : ∀ a ∈ bs, Gentle a)
    (hc : ∀ sts, .cleanup sts ∈ bs → st ∉ sts) :
    (∀ st', id ∈ listed (run sub c (step sub c (run sub c (init pid cls strict) as) (.finish k st)) bs).flow st' ↔ st' = st) ∧
      ∀ r ∈ (run sub c (step sub c (run sub c (init pid cls strict) as) (.finish k st)) bs).runs, r.2 ≠ id := by
  have h : J pid (run sub c (init pid cls strict) as) := (j_init inj cls strict).run sub c as hg
  obtain ⟨h1, h2, h3⟩ := h.running hk
  have h0 : Settled pid (step sub c (run sub c (init pid cls strict) as) (.finish k st)) st id := by
    refine ⟨h.step sub c _ trivial, ?_, ?_, ?_, ?_⟩
    · simp only [step, hk]
      exact runs_proc inj cls strict sub c as hk
    · have := (C94_filed_partial inj cls strict sub c as hg k st i id hk st).2 rfl
      simp only [run, List.foldl_append] at this
      exact this
    · simp only [step, hk]
      exact h2
    · simp only [step, hk]
      exact h3
  have h4 := h0.run sub c bs hg' (fun a ha => by
    cases a with
    | cleanup sts => exact hc sts ha
    | _ => trivial)
  exact ⟨fun st' => ⟨fun hm => h4.inv.part.unique hm h4.here, fun e => e ▸ h4.here⟩, h4.none⟩

/-- C94: an event whose execution is cut off together with its `process()` call stays listed as PROCESSING, and it is never executed again. -/
theorem C94_cut_off_partial {pid : Status → Nat} (inj : ∀ a b, pid a = pid b → a = b) (cls : List γ) (strict : Bool)
    (sub : γ → γ → Bool) (c : Processor.Cfg) (as : List (Act γ)) (hg : ∀ a ∈ as, Gentle a) (k i id : Nat)
    (hk : (run sub c (init pid cls strict) as).runs[k]? = some (i, id)) (bs : List (Act γ)) (hg' : ∀ a ∈ bs, Gentle a) :
    (∀ st', id ∈ listed (run sub c (step sub c (run sub c (init pid cls strict) as) (.vanish k)) bs).flow st' ↔ st' = .processing) ∧
      ∀ r ∈ (run sub c (step sub c (run sub c (init pid cls strict) as) (.vanish k)) bs).runs, r.2 ≠ id := by
  have h : J pid (run sub c (init pid cls strict) as) := (j_init inj cls strict).run sub c as hg
  obtain ⟨h1, h2, h3⟩ := h.running hk
  have h0 : Settled pid (step sub c (run sub c (init pid cls strict) as) (.vanish k)) .processing id :=
    ⟨h.step sub c _ trivial, runs_proc inj cls strict sub c as hk, h1, h2, h3⟩
  have h4 := h0.run sub c bs hg' (fun a ha => (hg' a ha).keeps.2)
  exact ⟨fun st' => ⟨fun hm => h4.inv.part.unique hm h4.here, fun e => e ▸ h4.here⟩, h4.none⟩

/-- C32: an event that is listed as pending after the processor was created, but is nowhere queued or in hand, is lost for good: whatever is
appended, started, forwarded, processed or cancelled later, it stays listed as pending and never executes (only a clean-up of PENDING
removes it). -/
theorem C32_lost_for_good_partial {pid : Status → Nat} (inj : ∀ a b, pid a = pid b → a = b) (cls : List γ) (strict : Bool)
    (sub : γ → γ → Bool) (c : Processor.Cfg) (as : List (Act γ)) (hg : ∀ a ∈ as, Gentle a) (p : Processor.Sys)
    (hp : (run sub c (init pid cls strict) as).proc = some p) (id : Nat)
    (hid : id ∈ listed (run sub c (init pid cls strict) as).flow .pending)
    (hq : ∀ e ∈ p.queue, e.2 ≠ id) (hpe : ∀ e ∈ p.pending, e.2 ≠ id) (hc : ∀ cl ∈ p.calls, ∀ e, cl.held = some e → e.2 ≠ id)
    (hb : id ∉ (run sub c (init pid cls strict) as).backfill) (bs : List (Act γ)) (hg' : ∀ a ∈ bs, Gentle a) :
    id ∈ listed (run sub c (init pid cls strict) (as ++ bs)).flow .pending ∧
      ∀ r ∈ (run sub c (init pid cls strict) (as ++ bs)).runs, r.2 ≠ id := by
  have h0 : Settled pid (run sub c (init pid cls strict) as) .pending id := by
    have hJ := (j_init inj cls strict).run sub c as hg
    refine ⟨hJ, by rw [hp]; simp, hid, ?_, hJ.pendingNoRun hid⟩
    rw [waiting_zero hp]
    refine ⟨?_, List.count_eq_zero_of_not_mem hb⟩
    have e1 : p.queue.countP (isId id) = 0 := List.countP_eq_zero.2 (fun e he => by simpa [isId] using hq e he)
    have e2 : p.pending.countP (isId id) = 0 := List.countP_eq_zero.2 (fun e he => by simpa [isId] using hpe e he)
    have e3 : p.calls.countP (holds id) = 0 := List.countP_eq_zero.2 (fun cl hcl => by
      simp only [holds]
      cases hh : cl.held with
      | none => simp
      | some e => simpa [isId] using hc cl hcl e hh)
    simp only [load, e1, e2, e3]
  have h1 := h0.run sub c bs hg' (fun a ha => (hg' a ha).keeps.1)
  have he : run sub c (init pid cls strict) (as ++ bs) = run sub c (run sub c (init pid cls strict) as) bs := by
    simp only [run, List.foldl_append]
  rw [he]
  exact ⟨h1.here, h1.none⟩

/-- Non-vacuity: the event refused by a full queue (`C32_full_violation`) meets the hypotheses. -/
example :
    let c : Processor.Cfg := { queueCapacity := 1, maxQueue := 1, maxDenial := 1 }
    let as : List (Act Unit) := [.start, .append (ev0 1 10) none, .enqPut 0, .append (ev0 2 5) none, .start, .fill]
    (2 ∈ listed (run (fun _ _ => true) c (init pid0 [()] false) as).flow .pending) ∧
      waiting (run (fun _ _ => true) c (init pid0 [()] false) as) 2 = 0 ∧ (run (fun _ _ => true) c (init pid0 [()] false) as).proc ≠ none := by
  refine ⟨by decide, by decide, by decide⟩

end Verif.Executor

namespace Verif.Streaming

open Verif.Event (Status)
open Verif.Executor

variable {γ : Type} [DecidableEq γ]

/-! ## C262 -/

/-- The status the documentation promises: COMPLETED for a stream that was exhausted, FAILED for one that raised, CANCELLED for one that was
cancelled. -/
def expected : Ending → Status
  | .exhausted => .completed
  | .raised => .failed
  | .cancelled => .cancelled

theorem consume_finish (sub : γ → γ → Bool) (c : Processor.Cfg) (s : Sys γ) (k : Nat) (b : Body) (h : b.ending ≠ .cancelled) :
    consume sub c s k b = step sub c s (.finish k b.final) := by
  simp only [consume]
  cases hb : b.ending with
  | exhausted => rfl
  | raised => rfl
  | cancelled => exact absurd hb h

/-- C262 (exact): when the stream of an executing event has been exhausted or has raised, the event is listed under exactly one status: the
one the code of `stream()` assigned last, PENDING if it assigned none.  So it is listed as the claim says exactly if `stream()` itself assigned
that status. -/
theorem C262_exact_partial {pid : Status → Nat} (inj : ∀ a b, pid a = pid b → a = b) (cls : List γ) (strict : Bool)
    (sub : γ → γ → Bool) (c : Processor.Cfg) (as : List (Act γ)) (hg : ∀ a ∈ as, Gentle a) (k i id : Nat)
    (hk : (run sub c (init pid cls strict) as).runs[k]? = some (i, id)) (b : Body) (hb : b.ending ≠ .cancelled) :
    (∀ st, id ∈ listed (consume sub c (run sub c (init pid cls strict) as) k b).flow st ↔ st = b.sets.getLastD .pending) ∧
    (id ∈ listed (consume sub c (run sub c (init pid cls strict) as) k b).flow (expected b.ending) ↔
      ∃ l, b.sets = l ++ [expected b.ending]) := by
  have hall : ∀ st, id ∈ listed (consume sub c (run sub c (init pid cls strict) as) k b).flow st ↔ st = b.sets.getLastD .pending := by
    intro st
    rw [consume_finish sub c _ k b hb]
    have := C94_filed_partial inj cls strict sub c as hg k b.final i id hk st
    simp only [run, List.foldl_append] at this
    exact this
  refine ⟨hall, ?_⟩
  rw [hall]
  constructor
  · intro h
    cases hs : b.sets with
    | nil =>
      rw [hs] at h
      cases he : b.ending with
      | exhausted => rw [he] at h; cases h
      | raised => rw [he] at h; cases h
      | cancelled => exact absurd he hb
    | cons x xs =>
      rw [hs] at h
      refine ⟨(x :: xs).dropLast, ?_⟩
      have hne : x :: xs ≠ [] := by simp
      have hl : (x :: xs).getLastD .pending = (x :: xs).getLast hne := by
        rw [List.getLastD_eq_getLast?, List.getLast?_eq_some_getLast hne]; rfl
      rw [h, hl]
      exact (List.dropLast_concat_getLast hne).symm
  · rintro ⟨l, hl⟩
    rw [hl, List.getLastD_eq_getLast?, List.getLast?_append]
    rfl

/-- C262 (consequence): an event whose `stream()` raised without assigning a status is reported nowhere and processed never again: it is listed
as pending at every later moment and never executes. -/
theorem C262_pending_for_ever_partial {pid : Status → Nat} (inj : ∀ a b, pid a = pid b → a = b) (cls : List γ) (strict : Bool)
    (sub : γ → γ → Bool) (c : Processor.Cfg) (as : List (Act γ)) (hg : ∀ a ∈ as, Gentle a) (k i id : Nat)
    (hk : (run sub c (init pid cls strict) as).runs[k]? = some (i, id)) (b : Body) (hb : b.ending ≠ .cancelled) (hs : b.sets = [])
    (bs : List (Act γ)) (hg' : ∀ a ∈ bs, Gentle a) :
    id ∈ listed (run sub c (consume sub c (run sub c (init pid cls strict) as) k b) bs).flow .pending ∧
      ∀ r ∈ (run sub c (consume sub c (run sub c (init pid cls strict) as) k b) bs).runs, r.2 ≠ id := by
  rw [consume_finish sub c _ k b hb]
  have hf : b.final = .pending := by
    simp only [Body.final, hs]
    rfl
  rw [hf]
  have h := C264_settled inj cls strict sub c as hg k i id hk .pending bs hg' (fun sts hm => (hg' _ hm).1)
  exact ⟨(h.1 .pending).2 rfl, h.2⟩

/-- C262, a cancelled stream: whatever statuses its code has assigned, the event stays listed as PROCESSING, and it is never executed again. -/
theorem C262_cancelled_partial {pid : Status → Nat} (inj : ∀ a b, pid a = pid b → a = b) (cls : List γ) (strict : Bool)
    (sub : γ → γ → Bool) (c : Processor.Cfg) (as : List (Act γ)) (hg : ∀ a ∈ as, Gentle a) (k i id : Nat)
    (hk : (run sub c (init pid cls strict) as).runs[k]? = some (i, id)) (b : Body) (hb : b.ending = .cancelled)
    (bs : List (Act γ)) (hg' : ∀ a ∈ bs, Gentle a) :
    (∀ st, id ∈ listed (run sub c (consume sub c (run sub c (init pid cls strict) as) k b) bs).flow st ↔ st = .processing) ∧
      ∀ r ∈ (run sub c (consume sub c (run sub c (init pid cls strict) as) k b) bs).runs, r.2 ≠ id := by
  simp only [consume, hb]
  exact C94_cut_off_partial inj cls strict sub c as hg k i id hk bs hg'

/-- C262 is false of the code: the stream raises, the error is swallowed, and the event is listed as pending, not as failed. -/
theorem C262_violation :
    listed (consume (fun _ _ => true) cfg0 (run (fun _ _ => true) cfg0 (init pid0 [()] false) (demo.take 11)) 0 ⟨[], .raised⟩).flow .pending
      = [1, 2] ∧
    listed (consume (fun _ _ => true) cfg0 (run (fun _ _ => true) cfg0 (init pid0 [()] false) (demo.take 11)) 0 ⟨[], .raised⟩).flow .failed
      = [] := by
  refine ⟨by decide, by decide⟩

example : (run (fun _ _ => true) cfg0 (init pid0 [()] false) (demo.take 11)).runs[0]? = some (0, 2) := by decide
example : ∀ a ∈ demo.take 11, Gentle a := by
  intro a ha
  simp [demo] at ha
  rcases ha with rfl | rfl | rfl | rfl | rfl | rfl | rfl | rfl | rfl | rfl | rfl <;> trivial
example : 2 ∈ listed (consume (fun _ _ => true) cfg0 (run (fun _ _ => true) cfg0 (init pid0 [()] false) (demo.take 11)) 0
    ⟨[.processing, .completed], .exhausted⟩).flow .completed := by decide

end Verif.Streaming
