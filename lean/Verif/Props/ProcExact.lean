import Verif.Props.ExecLoop

/-!
# C92: exactly when the capacity is lost, and when the processor stalls
-/

set_option linter.unusedSectionVars false
set_option linter.unusedSimpArgs false
set_option linter.unusedVariables false

namespace Verif.Processor

theorem overInv_init {c : Cfg} (hv : c.Valid) : OverInv c (init c) := ⟨by simp [init, sinceReset], .inr ⟨rfl, hv.1⟩⟩

theorem start_lt_step {c : Cfg} {s : Sys} (h : ∀ i e, Obs.start i e ∈ s.log → i < s.calls.length) (a : Act) :
    ∀ i e, Obs.start i e ∈ (step c s a).log → i < (step c s a).calls.length := by
  intro i e hm
  obtain ⟨l, h1, h2⟩ := ExecLoop.proc_step_log c s a
  have hlen : s.calls.length ≤ (step c s a).calls.length := by
    by_cases ha : a = .process
    · subst ha
      simp [step]
    · rw [ExecLoop.proc_step_calls c s a ha]
      exact Nat.le_refl _
  rw [h1] at hm
  rcases List.mem_append.1 hm with hm | hm
  · exact Nat.lt_of_lt_of_le (h i e hm) hlen
  · exact Nat.lt_of_lt_of_le (h2 i e hm) hlen

theorem start_lt {c : Cfg} : ∀ (as : List Act) (s : Sys), (∀ i e, Obs.start i e ∈ s.log → i < s.calls.length) →
    ∀ i e, Obs.start i e ∈ (run c s as).log → i < (run c s as).calls.length
  | [], s, h => h
  | a :: as, s, h => start_lt as (step c s a) (start_lt_step h a)

/-- With capacity left and an entry in the queue, a new `process()` call whose permission is granted starts it. -/
theorem starts_next {c : Cfg} {s : Sys} (hc : 0 < s.cap) (hq : s.queue ≠ []) : ∃ bs e,
    Obs.start s.calls.length e ∈ (run c s bs).log := by
  cases hp : Heapq.pop entryLt s.queue with
  | none => exact absurd ((Heapq.pop_none _ _).1 hp) hq
  | some r =>
    obtain ⟨e, q⟩ := r
    refine ⟨[.process, .go s.calls.length true .grant, .go s.calls.length true .grant, .go s.calls.length true .grant,
      .go s.calls.length true .grant], e, ?_⟩
    simp [run, step, advance, setCall, Sys.obs, hc, hq, hp]

/-- C92 (exact).  At any moment at which every `process()` call has ended: the full capacity is available exactly if no event was started since
the last call that returned normally after starting one; and no later history at all starts an event exactly if `queue_capacity` events or more
were started since then. -/
theorem C92_exact_partial {c : Cfg} (hv : c.Valid) (as : List Act) (hend : ∀ cl ∈ (run c (init c) as).calls, cl.ended = true) :
    ((run c (init c) as).cap = c.queueCapacity ↔ sinceReset (run c (init c) as).log = 0) ∧
    ((∀ bs i e, Obs.start i e ∈ (run c (run c (init c) as) bs).log → Obs.start i e ∈ (run c (init c) as).log) ↔
      c.queueCapacity ≤ sinceReset (run c (init c) as).log) := by
  have hs := ((overInv_init hv).run hv as).since
  refine ⟨by omega, ?_, ?_⟩
  · intro h
    refine Decidable.byContradiction (fun hlt => ?_)
    have hcap : 0 < (run c (init c) as).cap := by omega
    have hlog := start_lt (c := c) as (init c) (by intro i e hm; cases hm)
    by_cases hq : (run c (init c) as).queue = []
    · have hmax : ¬ c.maxQueue ≤ (run c (init c) as).queue.length := by
        rw [hq]
        have := hv.2.2.1
        simp only [List.length_nil]
        omega
      generalize hg : run c (init c) as = s at *
      have h1 : run c s [.enqueue 0 (some (.finite 0)) none, .enqPut s.pending.length] =
          { s with queue := Heapq.push entryLt s.queue (0, 0), log := s.log ++ [.enq (0, 0)] } := by
        simp [run, step, enqueue, hmax, enqPut, List.eraseIdx_append_of_length_le]
      obtain ⟨bs, e, hst⟩ := starts_next (c := c)
        (s := { s with queue := Heapq.push entryLt s.queue (0, 0), log := s.log ++ [.enq (0, 0)] }) hcap
        (by rw [hq]; simp [Heapq.push, Heapq.siftdown])
      rw [← h1] at hst
      have hst' : Obs.start s.calls.length e ∈ (run c s ([.enqueue 0 (some (.finite 0)) none, .enqPut s.pending.length] ++ bs)).log := by
        have : (run c s [.enqueue 0 (some (.finite 0)) none, .enqPut s.pending.length]).calls = s.calls := by rw [h1]
        rw [this] at hst
        simpa only [run, List.foldl_append] using hst
      have := hlog _ _ (h _ _ _ hst')
      omega
    · obtain ⟨bs, e, hst⟩ := starts_next (c := c) hcap hq
      have := hlog _ _ (h _ _ _ hst)
      omega
  · intro hle bs i e hm
    have h0 : Stalled (run c (init c) as) (run c (init c) as).log :=
      ⟨by omega, fun cl hcl => .inr (.inr (hend cl hcl)), fun _ _ h => h⟩
    exact (h0.run bs).log i e hm

example : (run ⟨1, 10, 10⟩ (init ⟨1, 10, 10⟩) cancelled).calls.all Call.ended = true ∧
    sinceReset (run ⟨1, 10, 10⟩ (init ⟨1, 10, 10⟩) cancelled).log = 1 := by decide

end Verif.Processor
