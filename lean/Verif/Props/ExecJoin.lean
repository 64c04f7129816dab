import Verif.Props.ExecLoop

set_option linter.unusedSectionVars false
set_option linter.unusedSimpArgs false
set_option linter.unusedVariables false

/-!
# `join()` and the progress of `execute()`: C254, C255
-/

namespace Verif.ExecLoop

open Verif.Processor (Cfg Obs Entry Call PC Perm)

/-! ## Every accepted event is queued, in hand, or has ended -/

/-- Acceptance of event `id` by `enqueue()`. -/
def isEnq (id : Nat) : Obs → Bool
  | .enq e => e.2 == id
  | _ => false

/-- Event `id` was started, found missing from the pile, or aborted. -/
def isEnd (id : Nat) : Obs → Bool
  | .start _ e => e.2 == id
  | .skip _ x => x == id
  | .aborted _ x => x == id
  | _ => false

/-- How often `enqueue()` has accepted event `id`. -/
def accepted (id : Nat) (log : List Obs) : Nat := log.countP (isEnq id)

/-- How often event `id` was started, skipped or aborted. -/
def ended (id : Nat) (log : List Obs) : Nat := log.countP (isEnd id)

/-- The entry is for event `id`. -/
def isFor (id : Nat) (e : Entry) : Bool := e.2 == id

/-- A `process()` call holds an entry for event `id`. -/
def holds (id : Nat) (cl : Call) : Bool := cl.held.any (isFor id)

/-- Copies of event `id` in the hands of `process()` calls. -/
def inHand (id : Nat) (s : Processor.Sys) : Nat := s.calls.countP (holds id)

/-- Copies of event `id` in the queue. -/
def queued (id : Nat) (s : Processor.Sys) : Nat := s.queue.countP (isFor id)

/-- The account of event `id`; `lost` copies were in the hands of `process()` calls that failed. -/
structure Book (id lost : Nat) (s : Processor.Sys) : Prop where
  heap : Heapq.IsHeap Processor.entryLt s.queue
  sum : accepted id s.log = queued id s + inHand id s + ended id s.log + lost

/-- The step makes a `process()` call fail. -/
def fails : Processor.Act → Bool
  | .cancel _ => true
  | .go _ _ .raise => true
  | _ => false

theorem accepted_append (id : Nat) (l m : List Obs) : accepted id (l ++ m) = accepted id l + accepted id m := List.countP_append
theorem ended_append (id : Nat) (l m : List Obs) : ended id (l ++ m) = ended id l + ended id m := List.countP_append

theorem Book.advance {c : Cfg} {s : Processor.Sys} {id lost : Nat} (h : Book id lost s) {i : Nat} {cl : Call} (hi : s.calls[i]? = some cl) (found : Bool) (perm : Perm) :
    ∃ lost', lost ≤ lost' ∧ (perm ≠ .raise → lost' = lost) ∧ Book id lost' (Processor.advance c s i cl found perm) := by
  have key : ∀ cl' : Call, (s.calls.set i cl').countP (holds id) + (if holds id cl then 1 else 0) =
      s.calls.countP (holds id) + (if holds id cl' then 1 else 0) := fun cl' => Processor.countP_set (holds id) cl' hi
  have hsum := h.sum
  unfold Processor.advance
  cases hpc : cl.pc with
  | check =>
    simp only
    split
    · have := key { cl with pc := .getting }
      simp [holds, Call.held, hpc] at this
      exact ⟨lost, Nat.le_refl _, fun _ => rfl, h.heap, by simp only [Processor.setCall, queued, inHand] at hsum ⊢; rw [hsum]; simp [holds, Call.held, this]⟩
    · have := key { cl with pc := .draining }
      simp [holds, Call.held, hpc] at this
      exact ⟨lost, Nat.le_refl _, fun _ => rfl, h.heap, by simp only [Processor.setCall, queued, inHand] at hsum ⊢; rw [hsum]; simp [holds, Call.held, this]⟩
  | getting =>
    simp only
    cases hq : Heapq.pop Processor.entryLt s.queue with
    | none => exact ⟨lost, Nat.le_refl _, fun _ => rfl, h⟩
    | some r =>
      obtain ⟨e, q⟩ := r
      obtain ⟨p1, p2, p3⟩ := Heapq.pop_spec Processor.entryOrder h.heap hq
      have hcnt := p1.countP_eq (isFor id)
      rw [List.countP_cons] at hcnt
      simp only
      split
      · refine ⟨lost, Nat.le_refl _, fun _ => rfl, p2, ?_⟩
        have := key { cl with pc := .asking e }
        simp [holds, Call.held, hpc] at this
        simp only [Processor.setCall, Processor.Sys.obs, queued, inHand, accepted_append, ended_append] at hsum ⊢
        simp [accepted, ended, isEnq, isEnd, holds, Call.held] at hsum ⊢
        simp [isFor] at *
        omega
      · refine ⟨lost, Nat.le_refl _, fun _ => rfl, p2, ?_⟩
        have := key { cl with pc := .check }
        simp [holds, Call.held, hpc] at this
        simp only [Processor.setCall, Processor.Sys.obs, queued, inHand, accepted_append, ended_append] at hsum ⊢
        simp [accepted, ended, isEnq, isEnd, holds, Call.held, List.countP_cons] at hsum ⊢
        simp [isFor] at *
        omega
  | asking e =>
    simp only
    cases perm with
    | grant =>
      refine ⟨lost, Nat.le_refl _, fun _ => rfl, h.heap, ?_⟩
      have := key { cl with pc := .granted e }
      simp [holds, Call.held, hpc] at this
      simp only [Processor.setCall, Processor.Sys.obs, queued, inHand, accepted_append, ended_append] at hsum ⊢
      simp [accepted, ended, isEnq, isEnd, holds, Call.held] at hsum ⊢
      simp [isFor] at *
      omega
    | deny =>
      simp only [Processor.deny]
      split
      · refine ⟨lost, Nat.le_refl _, fun _ => rfl, h.heap, ?_⟩
        have := key { cl with pc := .aborting e }
        simp [holds, Call.held, hpc] at this
        simp only [Processor.setCall, Processor.Sys.obs, queued, inHand, accepted_append, ended_append] at hsum ⊢
        simp [accepted, ended, isEnq, isEnd, holds, Call.held] at hsum ⊢
        simp [isFor] at *
        omega
      · refine ⟨lost, Nat.le_refl _, fun _ => rfl, h.heap, ?_⟩
        have := key { cl with pc := .requeueing e (Processor.nextCount c s.denials e.2) }
        simp [holds, Call.held, hpc] at this
        simp only [Processor.setCall, Processor.Sys.obs, queued, inHand, accepted_append, ended_append] at hsum ⊢
        simp [accepted, ended, isEnq, isEnd, holds, Call.held] at hsum ⊢
        simp [isFor] at *
        omega
    | raise =>
      refine ⟨lost + (if isFor id e then 1 else 0), Nat.le_add_right _ _, fun hf => absurd rfl hf, h.heap, ?_⟩
      have := key { cl with pc := .failed }
      simp [holds, Call.held, hpc] at this
      simp only [Processor.setCall, Processor.Sys.obs, queued, inHand, accepted_append, ended_append] at hsum ⊢
      simp [accepted, ended, isEnq, isEnd, holds, Call.held] at hsum ⊢
      simp [isFor] at *
      omega
  | granted e =>
    refine ⟨lost, Nat.le_refl _, fun _ => rfl, h.heap, ?_⟩
    have := key { processed := cl.processed + 1, pc := .check }
    simp [holds, Call.held, hpc] at this
    simp only [Processor.setCall, Processor.Sys.obs, queued, inHand, accepted_append, ended_append] at hsum ⊢
    simp [accepted, ended, isEnq, isEnd, holds, Call.held, List.countP_cons] at hsum ⊢
    simp [isFor] at *
    omega
  | aborting e =>
    refine ⟨lost, Nat.le_refl _, fun _ => rfl, h.heap, ?_⟩
    have := key { cl with pc := .draining }
    simp [holds, Call.held, hpc] at this
    simp only [Processor.setCall, Processor.Sys.obs, queued, inHand, accepted_append, ended_append] at hsum ⊢
    simp [accepted, ended, isEnq, isEnd, holds, Call.held, List.countP_cons] at hsum ⊢
    simp [isFor] at *
    omega
  | requeueing e n =>
    refine ⟨lost, Nat.le_refl _, fun _ => rfl, Heapq.push_heap Processor.entryOrder h.heap _, ?_⟩
    have := key { cl with pc := .draining }
    simp [holds, Call.held, hpc] at this
    have hcnt := (Heapq.push_perm Processor.entryLt s.queue (e.1 + n, e.2)).countP_eq (isFor id)
    rw [List.countP_cons] at hcnt
    simp only [Processor.setCall, Processor.Sys.obs, queued, inHand, accepted_append, ended_append] at hsum ⊢
    simp [accepted, ended, isEnq, isEnd, holds, Call.held, List.countP_cons] at hsum ⊢
    simp [isFor] at *
    omega
  | draining =>
    have := key { cl with pc := .done }
    simp [holds, Call.held, hpc] at this
    simp only
    split
    · refine ⟨lost, Nat.le_refl _, fun _ => rfl, h.heap, ?_⟩
      simp only [Processor.setCall, Processor.Sys.obs, queued, inHand, accepted_append, ended_append] at hsum ⊢
      simp [accepted, ended, isEnq, isEnd, holds, Call.held] at hsum ⊢
      omega
    · refine ⟨lost, Nat.le_refl _, fun _ => rfl, h.heap, ?_⟩
      simp only [Processor.setCall, Processor.Sys.obs, queued, inHand, accepted_append, ended_append] at hsum ⊢
      simp [accepted, ended, isEnq, isEnd, holds, Call.held] at hsum ⊢
      omega
  | done => exact ⟨lost, Nat.le_refl _, fun _ => rfl, h⟩
  | failed => exact ⟨lost, Nat.le_refl _, fun _ => rfl, h⟩

theorem Book.note {s : Processor.Sys} {id lost : Nat} (h : Book id lost s) (o : Obs) (h1 : isEnq id o = false) (h2 : isEnd id o = false) :
    Book id lost (s.obs o) := by
  refine ⟨h.heap, ?_⟩
  have := h.sum
  simp only [Processor.Sys.obs, queued, inHand, accepted_append, ended_append] at this ⊢
  simp [accepted, ended, h1, h2] at this ⊢
  omega

theorem Book.step {c : Cfg} {s : Processor.Sys} {id lost : Nat} (h : Book id lost s) (a : Processor.Act) :
    ∃ lost', lost ≤ lost' ∧ (fails a = false → lost' = lost) ∧ Book id lost' (Processor.step c s a) := by
  cases a with
  | enqueue x prio created =>
    refine ⟨lost, Nat.le_refl _, fun _ => rfl, ?_⟩
    simp only [Processor.step, Processor.enqueue]
    split
    · exact h.note _ rfl rfl
    · split
      · exact ⟨h.heap, h.sum⟩
      · exact h.note _ rfl rfl
      · split
        · exact ⟨h.heap, h.sum⟩
        · exact h.note _ rfl rfl
  | enqPut k =>
    refine ⟨lost, Nat.le_refl _, fun _ => rfl, ?_⟩
    simp only [Processor.step, Processor.enqPut]
    split
    · exact h
    · next e _ =>
      refine ⟨Heapq.push_heap Processor.entryOrder h.heap e, ?_⟩
      have hcnt := (Heapq.push_perm Processor.entryLt s.queue e).countP_eq (isFor id)
      rw [List.countP_cons] at hcnt
      have hsum := h.sum
      simp only [queued, inHand, accepted_append, ended_append] at hsum ⊢
      simp [accepted, ended, isEnq, isEnd, List.countP_cons] at hsum ⊢
      simp [isFor] at *
      omega
  | process =>
    refine ⟨lost, Nat.le_refl _, fun _ => rfl, h.heap, ?_⟩
    have hsum := h.sum
    simp only [Processor.step, queued, inHand] at hsum ⊢
    rw [hsum]
    simp [holds, Call.held]
  | go i f p =>
    simp only [Processor.step]
    split
    · exact ⟨lost, Nat.le_refl _, fun _ => rfl, h⟩
    · next cl hi =>
      obtain ⟨l', h1, h2, h3⟩ := h.advance (c := c) hi f p
      exact ⟨l', h1, fun hf => h2 (by rintro rfl; simp [fails] at hf), h3⟩
  | cancel i =>
    simp only [Processor.step]
    split
    · exact ⟨lost, Nat.le_refl _, fun _ => rfl, h⟩
    · next cl hi =>
      split
      · exact ⟨lost, Nat.le_refl _, fun _ => rfl, h⟩
      · refine ⟨lost + (if holds id cl then 1 else 0), Nat.le_add_right _ _, fun hf => by simp [fails] at hf, h.heap, ?_⟩
        have := Processor.countP_set (holds id) { cl with pc := .failed } hi
        have hno : holds id { cl with pc := .failed } = false := rfl
        rw [hno] at this
        have hsum := h.sum
        simp only [Processor.setCall, queued, inHand] at hsum ⊢
        simp at this
        omega
  | stop => exact ⟨lost, Nat.le_refl _, fun _ => rfl, (⟨h.heap, h.sum⟩ : Book id lost { s with denials := [] }).note _ rfl rfl⟩
  | forget x => exact ⟨lost, Nat.le_refl _, fun _ => rfl, (⟨h.heap, h.sum⟩ : Book id lost { s with denials := s.denials.del x }).note _ rfl rfl⟩

theorem book_init (c : Cfg) (id : Nat) : Book id 0 (Processor.init c) := ⟨Heapq.heap_nil _, rfl⟩

/-- The step makes a `process()` call fail. -/
def failing : Act → Bool
  | .proc a => fails a
  | _ => false

theorem turn_book {c : Cfg} {s : Sys} {id lost : Nat} (h : Book id lost s.proc) (i : Nat) : Book id lost (turn c s i).proc := by
  unfold turn
  split
  · exact h
  · obtain ⟨l', h1, h2, h3⟩ := h.step (c := c) .process
    rw [h2 rfl] at h3
    exact h3

theorem book_step {c : Cfg} {s : Sys} {id lost : Nat} (h : Book id lost s.proc) (a : Act) :
    ∃ lost', lost ≤ lost' ∧ (failing a = false → lost' = lost) ∧ Book id lost' (step c s a).proc := by
  cases a with
  | proc a => exact h.step a
  | start => exact ⟨lost, Nat.le_refl _, fun _ => rfl, h⟩
  | execute => exact ⟨lost, Nat.le_refl _, fun _ => rfl, turn_book (s := { s with mode := true, stopped := false, loops := s.loops ++ [.sleeping] }) h _⟩
  | resume i =>
    refine ⟨lost, Nat.le_refl _, fun _ => rfl, ?_⟩
    simp only [step]
    cases s.loops[i]? with
    | none => exact h
    | some l =>
      simp only [Option.map_some, Option.getD_some]
      cases l with
      | processing k =>
        simp only [resume]
        split
        · exact h
        · split <;> exact h
      | sleeping => exact turn_book h i
      | returned => exact h
      | raised => exact h
  | cancel i => exact ⟨lost, Nat.le_refl _, fun _ => rfl, h⟩
  | join => exact ⟨lost, Nat.le_refl _, fun _ => rfl, h⟩
  | poll j => exact ⟨lost, Nat.le_refl _, fun _ => rfl, h⟩

theorem book_run {c : Cfg} (as : List Act) {s : Sys} {id lost : Nat} (h : Book id lost s.proc) :
    ∃ lost', lost ≤ lost' ∧ (as.all (fun a => !failing a) = true → lost' = lost) ∧ Book id lost' (run c s as).proc := by
  induction as generalizing s lost with
  | nil => exact ⟨lost, Nat.le_refl _, fun _ => rfl, h⟩
  | cons a as ih =>
    obtain ⟨l1, h1, h2, h3⟩ := book_step (c := c) h a
    obtain ⟨l2, g1, g2, g3⟩ := ih (s := step c s a) h3
    refine ⟨l2, Nat.le_trans h1 g1, fun hall => ?_, g3⟩
    rw [List.all_cons, Bool.and_eq_true] at hall
    rw [g2 hall.2, h2 (by simpa using hall.1)]

/-- No `process()` call is cancelled and no permission check raises. -/
def NoFailure (as : List Act) : Prop := as.all (fun a => !failing a) = true

/-! ## C254: `join()` -/

/-- Every event accepted so far has been started, found missing, or aborted. -/
def AllEnded (s : Sys) : Prop := ∀ id, accepted id s.proc.log = ended id s.proc.log

/-- A `process()` call holds an event. -/
def Held (s : Sys) : Prop := ∃ cl ∈ s.proc.calls, cl.held.isSome = true

/-- C254.  When a `join()` call returns (at once, or on waking up), the queue is empty at that moment.  If no `process()` call has failed, every event accepted until then has been started, found
missing or aborted exactly if no `process()` call holds an event at that moment. -/
theorem C254_exact_partial (c : Cfg) (as : List Act) (a : Act) (j : Nat) (hn : (run c (init c) as).joins[j]? ≠ some .returned)
    (hr : (run c (init c) (as ++ [a])).joins[j]? = some .returned) :
    (run c (init c) (as ++ [a])).proc.queue = [] ∧
      (NoFailure as → (AllEnded (run c (init c) (as ++ [a])) ↔ ¬ Held (run c (init c) (as ++ [a])))) := by
  have hsame : ∀ t : Sys, t.joins = (run c (init c) as).joins → t.joins[j]? = some .returned → False := fun t e h => hn (by rw [← e]; exact h)
  have hq : (run c (init c) (as ++ [a])).proc = (run c (init c) as).proc ∧ (run c (init c) as).proc.queue = [] := by
    rw [run_snoc] at hr ⊢
    cases a with
    | proc a => exact (hsame _ rfl hr).elim
    | start => exact (hsame _ rfl hr).elim
    | execute => exact (hsame _ (by simp only [step, execute, turn]; split <;> rfl) hr).elim
    | resume i =>
      refine (hsame _ ?_ hr).elim
      simp only [step]
      cases (run c (init c) as).loops[i]? with
      | none => rfl
      | some l =>
        simp only [Option.map_some, Option.getD_some]
        cases l with
        | processing k =>
          simp only [resume]
          split
          · rfl
          · split <;> rfl
        | sleeping => simp only [resume, turn]; split <;> rfl
        | returned => rfl
        | raised => rfl
    | cancel i => exact (hsame _ rfl hr).elim
    | join =>
      refine ⟨rfl, ?_⟩
      simp only [step] at hr
      rw [List.getElem?_append] at hr
      split at hr
      · exact absurd hr hn
      · have hm := List.mem_of_getElem? hr
        rw [List.mem_singleton] at hm
        simp only [joinTest] at hm
        split at hm
        · assumption
        · simp at hm
    | poll i =>
      refine ⟨rfl, ?_⟩
      simp only [step] at hr
      rw [List.getElem?_modify] at hr
      cases hl : (run c (init c) as).joins[j]? with
      | none => rw [hl] at hr; simp at hr
      | some l =>
        rw [hl] at hr hn
        by_cases hij : i = j
        · cases l with
          | returned => exact absurd rfl hn
          | waiting =>
            simp [hij, joinNext, joinTest] at hr
            exact hr
        · simp [hij] at hr
          exact absurd (by rw [hr]) hn
  refine ⟨by rw [hq.1]; exact hq.2, fun hnf => ?_⟩
  unfold AllEnded Held
  rw [hq.1]
  have hbook : ∀ id, accepted id (run c (init c) as).proc.log = inHand id (run c (init c) as).proc + ended id (run c (init c) as).proc.log := by
    intro id
    obtain ⟨l', h1, h2, h3⟩ := book_run (c := c) as (s := init c) (book_init c id)
    have := h3.sum
    rw [h2 hnf] at this
    have hz : queued id (run c (init c) as).proc = 0 := by simp [queued, hq.2]
    omega
  constructor
  · rintro hall ⟨cl, hcl, hh⟩
    obtain ⟨e, he⟩ := Option.isSome_iff_exists.mp hh
    have h1 := hbook e.2
    rw [hall e.2] at h1
    have h0 : inHand e.2 (run c (init c) as).proc = 0 := by omega
    rw [inHand, List.countP_eq_zero] at h0
    exact h0 cl hcl (by simp [holds, he, isFor])
  · intro hno id
    have h1 := hbook id
    have h0 : inHand id (run c (init c) as).proc = 0 := by
      rw [inHand, List.countP_eq_zero]
      intro cl hcl hh
      refine hno ⟨cl, hcl, ?_⟩
      simp only [holds] at hh
      cases hx : cl.held with
      | none => rw [hx] at hh; simp at hh
      | some e => rfl
    omega

/-- C254: a `join()` call that has returned has returned for good, and one that has not is waiting, whatever happens. -/
theorem C254_returned_partial (c : Cfg) (as bs : List Act) (j : Nat) (h : (run c (init c) as).joins[j]? = some .returned) :
    (run c (init c) (as ++ bs)).joins[j]? = some .returned := by
  rw [show run c (init c) (as ++ bs) = run c (run c (init c) as) bs by simp [run, List.foldl_append]]
  generalize run c (init c) as = s at *
  induction bs generalizing s with
  | nil => exact h
  | cons a bs ih =>
    refine ih (step c s a) ?_
    cases a with
    | proc a => exact h
    | start => exact h
    | execute => simp only [step, execute, turn]; split <;> exact h
    | resume i =>
      simp only [step]
      cases hl : s.loops[i]? with
      | none => exact h
      | some l =>
        cases l with
        | processing k => simp only [Option.map_some, Option.getD_some, resume]; split; exact h; split <;> exact h
        | sleeping => simp only [Option.map_some, Option.getD_some, resume, turn]; split <;> exact h
        | returned => exact h
        | raised => exact h
    | cancel i => exact h
    | join =>
      show (s.joins ++ [joinTest s])[j]? = _
      rw [List.getElem?_append_left (List.getElem?_eq_some_iff.1 h).1]; exact h
    | poll i =>
      show (s.joins.modify i (joinNext s))[j]? = _
      rw [List.getElem?_modify, h]
      by_cases hij : i = j <;> simp [hij, joinNext]

/-- The event that `join()` misses: taken from the queue, its permission check under way. -/
def joinEx : List Act :=
  [.proc (.enqueue 1 (some (.finite 1)) none), .proc (.enqPut 0), .execute, .proc (.go 0 true .grant), .proc (.go 0 true .grant), .join]

/-- C254 fails: `join()` returns while an accepted event is still to be processed: its permission is denied afterwards, it is put back into the queue and started later. -/
theorem C254_violation : (run ⟨5, 10, 10⟩ (init ⟨5, 10, 10⟩) joinEx).joins = [.returned] ∧ ¬ AllEnded (run ⟨5, 10, 10⟩ (init ⟨5, 10, 10⟩) joinEx) ∧
    (run ⟨5, 10, 10⟩ (init ⟨5, 10, 10⟩) (joinEx ++ [.proc (.go 0 true .deny), .proc (.go 0 true .grant)])).proc.queue = [(2, 1)] := by
  refine ⟨by decide +kernel, ?_, by decide +kernel⟩
  intro h
  have := h 1
  revert this
  decide +kernel

/-- The hypotheses are met, with an event that has been started when `join()` returns. -/
example : NoFailure (joinEx.dropLast ++ [.proc (.go 0 true .grant), .proc (.go 0 true .grant)]) ∧
    (run ⟨5, 10, 10⟩ (init ⟨5, 10, 10⟩) (joinEx.dropLast ++ [.proc (.go 0 true .grant), .proc (.go 0 true .grant)])).joins[0]? ≠ some .returned ∧
    (run ⟨5, 10, 10⟩ (init ⟨5, 10, 10⟩) (joinEx.dropLast ++ [.proc (.go 0 true .grant), .proc (.go 0 true .grant)] ++ [.join])).joins[0]? = some .returned ∧
    ended 1 (run ⟨5, 10, 10⟩ (init ⟨5, 10, 10⟩) (joinEx.dropLast ++ [.proc (.go 0 true .grant), .proc (.go 0 true .grant)] ++ [.join])).proc.log = 1 :=
  ⟨by unfold NoFailure; decide, by decide +kernel, by decide +kernel, by decide +kernel⟩

/-- C26.  In every history without failing `process()` calls, for every event: it was accepted as often as it is in the queue, in the hands of a `process()` call, or was
started, found missing or aborted; in a history with failures never less. -/
theorem C26_account (c : Cfg) (as : List Act) (id : Nat) :
    queued id (run c (init c) as).proc + inHand id (run c (init c) as).proc + ended id (run c (init c) as).proc.log ≤ accepted id (run c (init c) as).proc.log ∧
    (NoFailure as → accepted id (run c (init c) as).proc.log =
      queued id (run c (init c) as).proc + inHand id (run c (init c) as).proc + ended id (run c (init c) as).proc.log) := by
  obtain ⟨l', h1, h2, h3⟩ := book_run (c := c) as (s := init c) (book_init c id)
  have := h3.sum
  refine ⟨by omega, fun hn => ?_⟩
  have := h2 hn
  omega

end Verif.ExecLoop
