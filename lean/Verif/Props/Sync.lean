import Verif.Lemmas.SyncRG
import Verif.Props.Graph
import Verif.Props.Pile
import Verif.Props.Flow

/-!
# C182, C183: threads

Calls made by any number of threads, under every schedule.
-/

set_option linter.unusedSectionVars false
set_option linter.unusedVariables false
set_option linter.unusedSimpArgs false

namespace Verif.Sync

open Serial

variable {C σ α S S' : Type}

/-- The state after the first `n` steps of a schedule. -/
def stateAt (m : State σ α) (sched : Nat → Nat) (n : Nat) : State σ α := run m ((List.range n).map sched)

theorem stateAt_succ (m : State σ α) (sched : Nat → Nat) (n : Nat) :
    stateAt m sched (n + 1) = step (stateAt m sched n) (sched n) := by
  simp [stateAt, run, List.range_succ]

/-- The calls of `log`, made one after the other, explain what can be seen: each thread's calls in the log are its first calls in program order; none
of the calls a thread has not yet started is in the log; every thread has received the results of the log's calls; and when nobody is in a
call the shared object looks as the calls of the log have left it (`shows_`). -/
structure Explains (f : C → S → S × α) (calls : Nat → List C) (s0 : S) (shows_ : σ → S → Prop) (lock : Nat) (m : State σ α)
    (log : List (Nat × C)) : Prop where
  order : ∀ t, callsOf t log <+: calls t
  future : ∀ t, (callsOf t log).length + (m.threads t).todo.length ≤ (calls t).length
  results : ∀ t, (m.threads t).out <+: results f t s0 log
  shared : m.locks lock = none → shows_ m.shared (state f s0 log)

/-- **C182**.  Methods of one object that run under its lock (and whose bodies take further locks in `with` blocks) appear to happen one after the
other, in an order that only grows, keeps the program order of every thread and the real-time order of calls, and gives
the results every thread has received.  The bodies may consist of any atomic steps, branch on what they read, and re-enter the lock. -/
theorem C182_linearizable (body : C → Prog σ α) (f : C → σ → σ × α) (hf : ∀ c s, exec (body c) s = f c s) (lock B : Nat)
    (calls : Nat → List C) (hb : ∀ t, ∀ c ∈ calls t, Nested B [lock] [] (body c)) (s0 : σ) (sched : Nat → Nat) :
    ∃ log : Nat → List (Nat × C), ∀ n,
      Explains f calls s0 (fun s s' => s = s') lock (stateAt (init s0 (fun t => (calls t).map (fun c => withLock lock (body c)))) sched n) (log n)
      ∧ log n <+: log (n + 1) := by
  obtain ⟨L, hL⟩ := Lin.chain (body := body) (g := lock) hb
    (stateAt (init s0 (fun t => (calls t).map (fun c => withLock lock (body c)))) sched) sched rfl (stateAt_succ _ _)
  have hff : (fun c => exec (body c)) = f := by funext c s; exact hf c s
  refine ⟨L, fun n => ⟨?_, (hL n).2⟩⟩
  obtain ⟨ph, hlin⟩ := (hL n).1
  refine ⟨?_, ?_, ?_, ?_⟩
  · intro t
    obtain ⟨rest, -, ha⟩ := hlin.acct t
    rw [ha, List.append_assoc]
    exact List.prefix_append _ _
  · intro t
    obtain ⟨rest, hr, ha⟩ := hlin.acct t
    rw [ha, hr]
    simp
  · intro t
    have := hlin.res t
    rw [hff] at this
    rw [this]
    exact List.prefix_append _ _
  · intro hl
    have := hlin.free (by
      intro t hin
      have h1 := hlin.locks.2 t lock
      rw [hl] at h1
      cases e : ph t with
      | inside p q h => simp [e, Ph.held, depth] at h1
      | _ => rw [e] at hin; exact hin)
    rw [hff] at this
    exact this

/-- Calls that do the same to an abstract object, seen through a relation. -/
theorem simulates (f : C → σ → σ × α) (g : C → S → S × α) (Rel : σ → S → Prop)
    (h : ∀ c s a, Rel s a → Rel (f c s).1 (g c a).1 ∧ (f c s).2 = (g c a).2) :
    ∀ (log : List (Nat × C)) (s : σ) (a : S), Rel s a →
      Rel (state f s log) (state g a log) ∧ ∀ t, results f t s log = results g t a log
  | [], s, a, hr => ⟨hr, fun _ => rfl⟩
  | (u, c) :: log, s, a, hr => by
    obtain ⟨h1, h2⟩ := h c s a hr
    obtain ⟨i1, i2⟩ := simulates f g Rel h log _ _ h1
    refine ⟨i1, fun t => ?_⟩
    simp only [results, h2, i2 t]

theorem Explains.abstract {f : C → σ → σ × α} {g : C → S → S × α} {Rel shows_ : σ → S → Prop} {calls : Nat → List C} {s0 : σ} {a0 : S}
    {lock : Nat} {m : State σ α} {log : List (Nat × C)} (hx : Explains f calls s0 (fun s s' => s = s') lock m log)
    (h : ∀ c s a, Rel s a → Rel (f c s).1 (g c a).1 ∧ (f c s).2 = (g c a).2) (h0 : Rel s0 a0) (hs : ∀ s a, Rel s a → shows_ s a) :
    Explains g calls a0 shows_ lock m log := by
  obtain ⟨h1, h2⟩ := simulates f g Rel h log s0 a0 h0
  refine ⟨hx.order, hx.future, fun t => ?_, fun hl => ?_⟩
  · rw [← h2 t]; exact hx.results t
  · rw [hx.shared hl]; exact hs _ _ h1

/-- **C183**.  Such calls never block each other for good: from every reachable state all of the first `N` threads can be run to the end of
all their calls. -/
theorem C183_all_calls_can_complete (body : C → Prog σ α) (lock B : Nat) (calls : Nat → List C)
    (hb : ∀ t, ∀ c ∈ calls t, Nested B [lock] [] (body c)) (s0 : σ) (sched : List Nat) (N : Nat) :
    ∃ more, ∀ t < N, Done (run (init s0 (fun t => (calls t).map (fun c => withLock lock (body c)))) (sched ++ more)) t := by
  obtain ⟨log, ph, h⟩ := Lin.run (body := body) (g := lock) hb sched (Lin.init (s0 := s0) (calls := calls))
  obtain ⟨more, hm⟩ := Lin.completes hb h N
  refine ⟨more, ?_⟩
  rw [run_append]
  exact hm

/-- **C183** (any objects).  Threads that call methods of several objects, also without a common outer lock, never deadlock if locks are taken
in `with` blocks and in rank order: while some thread is not done, some thread that is not done can move. -/
theorem C183_no_deadlock (B : Nat) (calls : Nat → List (Prog σ α)) (hb : ∀ t, ∀ p ∈ calls t, Nested B [] [] p) (s0 : σ) (sched : List Nat)
    (t : Nat) (ht : ¬ Done (run (init s0 calls) sched) t) :
    ∃ u, ¬ Done (run (init s0 calls) sched) u ∧ ¬ Waits (run (init s0 calls) sched) u := by
  obtain ⟨held, h⟩ := (Ordered.init (s0 := s0) hb).run sched
  have key : ∀ v, ¬ Done (run (init s0 calls) sched) v ↔
      (((run (init s0 calls) sched).threads v).cur ≠ none ∨ ((run (init s0 calls) sched).threads v).todo ≠ []) := by
    intro v
    unfold Done
    by_cases e : ((run (init s0 calls) sched).threads v).cur = none
    · simp [e]
    · simp [e]
  obtain ⟨u, hu, hw⟩ := h.no_deadlock ((key t).1 ht)
  exact ⟨u, (key u).2 hu, hw⟩

/-- A body for the examples: read a counter, take another lock, write. -/
def bump (n : Nat) : Prog Nat Nat := .atomic id (fun s => withLock 1 (.atomic (fun _ => s + n) (fun _ => .ret s)))

/-- Non-vacuity of C182: two threads that each add to a counter in two steps; the schedule switches inside the calls; the second thread waits, and
the results are those of the calls one after the other. -/
example : Nested 2 [0] [] (bump 3) ∧
    (run (init 0 (fun t => if t < 2 then [withLock 0 (bump (t + 1))] else [])) [0, 1, 0, 1, 0, 1, 0, 1, 0, 0, 0, 0, 1, 1, 1, 1, 1, 1, 1, 1]).shared = 3 ∧
    ((run (init 0 (fun t => if t < 2 then [withLock 0 (bump (t + 1))] else [])) [0, 1, 0, 1, 0, 1, 0, 1, 0, 0, 0, 0, 1, 1, 1, 1, 1, 1, 1, 1]).threads 1).out = [1] := by
  refine ⟨by simp [bump, withLock, Nested, MayTake, Prog.bind, leave], rfl, rfl⟩

/-- Without the lock an update is lost. -/
example : (run (init 0 (fun t => if t < 2 then [bump (t + 1)] else [])) [0, 1, 0, 1, 0, 0, 0, 0, 1, 1, 1, 1]).shared = 2 := rfl

/-- Two locks taken in both orders: a deadlock; C183 needs its rank order. -/
theorem C183_order_limit :
    let m := run (init () (fun t => if t = 0 then [withLock 0 (withLock 1 (.ret ()))] else if t = 1 then [withLock 1 (withLock 0 (.ret ()))] else []))
      [0, 0, 1, 1]
    Waits m 0 ∧ Waits m 1 ∧ ∀ t, t ≠ 0 → t ≠ 1 → Done m t := by
  refine ⟨⟨1, _, 1, 1, rfl, rfl, by decide⟩, ⟨0, _, 0, 1, rfl, rfl, by decide⟩, ?_⟩
  intro t h0 h1
  simp [run, init, step, startNext, State.setThread, State.setLock, stepProg, withLock, take, Done, h0, h1, Thread.goto]

end Verif.Sync
