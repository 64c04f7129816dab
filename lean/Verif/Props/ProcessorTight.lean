import Verif.Props.Processor

set_option linter.unusedSectionVars false
set_option linter.unusedSimpArgs false
set_option linter.unusedVariables false

/-!
# C29, C91: the bounds are the best ones
-/

namespace Verif.Processor

theorem run_app (c : Cfg) (s : Sys) (a b : List Act) : run c s (a ++ b) = run c (run c s a) b := by simp [run]

theorem run_cons (c : Cfg) (s : Sys) (a : Act) (b : List Act) : run c s (a :: b) = run c (step c s a) b := rfl

theorem run_nil (c : Cfg) (s : Sys) : run c s [] = s := rfl

theorem get_last (xs : List Call) (a y : Call) (m : Nat) (h : xs.length = m) : (a :: (xs ++ [y]))[m + 1]? = some y := by
  subst h; simp

theorem set_last (xs : List Call) (a y z : Call) (m : Nat) (h : xs.length = m) : (a :: (xs ++ [y])).set (m + 1) z = a :: (xs ++ [z]) := by
  subst h; simp

/-! ### C91: one call of `process()` can start any number of events -/

/-- Call 0 and a new call `m + 1` both take an event and start it; the new call ends and resets the capacity. -/
def round (m : Nat) : List Act :=
  [.enqueue 0 (some (.finite 0)) none, .enqPut 0, .process, .go 0 true .grant, .go (m + 1) true .grant, .go 0 true .grant,
   .enqueue 1 (some (.finite 0)) none, .enqPut 0, .go (m + 1) true .grant,
   .go 0 true .grant, .go (m + 1) true .grant, .go 0 true .grant, .go (m + 1) true .grant, .go (m + 1) true .grant, .go (m + 1) true .grant]

theorem push_one (e : Entry) : Heapq.push entryLt [] e = [e] := rfl

theorem pop_one (e : Entry) : Heapq.pop entryLt [e] = some (e, []) := rfl

theorem round_run {c : Cfg} (hv : c.Valid) (m : Nat) (d : Dict Nat Nat) (xs : List Call) (hx : xs.length = m) (l : List Obs) :
    run c { queue := [], cap := c.queueCapacity, denials := d, calls := ⟨m, .check⟩ :: xs, pending := [], log := l } (round m) =
      { queue := [], cap := c.queueCapacity, denials := (d.del 0).del 1, calls := ⟨m + 1, .check⟩ :: (xs ++ [⟨1, .done⟩]), pending := [],
        log := l ++ [.enq (0, 0), .take 0 (0, 0), .enq (0, 1), .take (m + 1) (0, 1), .grant 0 0, .grant (m + 1) 1, .start 0 (0, 0), .start (m + 1) (0, 1), .reset (m + 1)] } := by
  have h1 : ¬ c.maxQueue ≤ 0 := by have := hv.2.2.1; omega
  have h2 : 0 < c.queueCapacity := by have := hv.1; omega
  simp [round, run_cons, run_nil, step, enqueue, enqPut, h1, h2, push_one, pop_one, advance, get_last xs _ _ m hx, set_last xs _ _ _ m hx, setCall, Sys.obs]

/-- Rounds one after the other. -/
def rounds : Nat → List Act
  | 0 => [.process]
  | m + 1 => rounds m ++ round m

theorem rounds_run {c : Cfg} (hv : c.Valid) : ∀ m : Nat, ∃ d xs l, xs.length = m ∧ (∀ x ∈ xs, x.pc = .done) ∧ starts 0 l = m ∧
    run c (init c) (rounds m) = { queue := [], cap := c.queueCapacity, denials := d, calls := ⟨m, .check⟩ :: xs, pending := [], log := l } := by
  intro m
  induction m with
  | zero => exact ⟨[], [], [], rfl, nofun, rfl, rfl⟩
  | succ m ih =>
    obtain ⟨d, xs, l, hx, hd, hl, hr⟩ := ih
    refine ⟨(d.del 0).del 1, xs ++ [⟨1, .done⟩],
      l ++ [.enq (0, 0), .take 0 (0, 0), .enq (0, 1), .take (m + 1) (0, 1), .grant 0 0, .grant (m + 1) 1, .start 0 (0, 0), .start (m + 1) (0, 1), .reset (m + 1)],
      ?_, ?_, ?_, ?_⟩
    · simp [hx]
    · intro x hm
      rcases List.mem_append.1 hm with h | h
      · exact hd x h
      · rw [List.mem_singleton.1 h]
    · simp [starts, List.filter_append, isStart] at hl ⊢
      omega
    · simp only [rounds, run_app, hr, round_run hv m d xs hx l]

/-- The number of calls that have not ended. -/
def opened (s : Sys) : Nat := s.calls.countP (fun cl => !cl.ended)

theorem advance_calls (c : Cfg) (s : Sys) (i : Nat) (cl : Call) (f : Bool) (p : Perm) :
    (advance c s i cl f p).calls = s.calls ∨ (cl.ended = false ∧ ∃ cl', (advance c s i cl f p).calls = s.calls.set i cl') := by
  unfold advance
  split
  · next h => right; refine ⟨by simp [Call.ended, h], ?_⟩; split <;> exact ⟨_, rfl⟩
  · next h =>
    split
    · exact .inl rfl
    · right; refine ⟨by simp [Call.ended, h], ?_⟩; split <;> exact ⟨_, rfl⟩
  · next h =>
    right; refine ⟨by simp [Call.ended, h], ?_⟩
    split
    · exact ⟨_, rfl⟩
    · simp only [deny]; split <;> exact ⟨_, rfl⟩
    · exact ⟨_, rfl⟩
  · next h => exact .inr ⟨by simp [Call.ended, h], _, rfl⟩
  · next h => exact .inr ⟨by simp [Call.ended, h], _, rfl⟩
  · next h => exact .inr ⟨by simp [Call.ended, h], _, rfl⟩
  · next h => right; refine ⟨by simp [Call.ended, h], ?_⟩; split <;> exact ⟨_, rfl⟩
  · exact .inl rfl
  · exact .inl rfl

theorem opened_set {l : List Call} {i : Nat} {cl : Call} (cl' : Call) (hi : l[i]? = some cl) (h : cl.ended = false) :
    (l.set i cl').countP (fun cl => !cl.ended) ≤ l.countP (fun cl => !cl.ended) := by
  have := countP_set (fun cl : Call => !cl.ended) cl' hi
  rw [h] at this
  simp only [Bool.not_false, if_true] at this
  split at this <;> omega

theorem opened_step (c : Cfg) (s : Sys) (a : Act) : opened (step c s a) ≤ opened s + (if a = .process then 1 else 0) := by
  cases a with
  | enqueue id prio created =>
    have : (step c s (.enqueue id prio created)).calls = s.calls := by
      simp only [step, enqueue]
      split
      · rfl
      · split
        · rfl
        · rfl
        · split <;> rfl
    simp [opened, this]
  | enqPut k =>
    have : (step c s (.enqPut k)).calls = s.calls := by
      simp only [step, enqPut]
      split <;> rfl
    simp [opened, this]
  | process => simp [opened, step, List.countP_append, Call.ended]
  | go i f p =>
    simp only [step, reduceCtorEq, if_false, Nat.add_zero]
    cases hi : s.calls[i]? with
    | none => exact Nat.le_refl _
    | some cl =>
      rcases advance_calls c s i cl f p with h | ⟨h, cl', h'⟩
      · simp [opened, h]
      · simp only [opened, h']; exact opened_set cl' hi h
  | cancel i =>
    simp only [step, reduceCtorEq, if_false, Nat.add_zero]
    cases hi : s.calls[i]? with
    | none => exact Nat.le_refl _
    | some cl =>
      simp only
      cases h : cl.ended with
      | true => simp
      | false => simp only [opened, setCall, Bool.false_eq_true, if_false]; exact opened_set _ hi h
  | stop => simp [step, opened, Sys.obs]
  | forget id => simp [step, opened, Sys.obs]

theorem opened_run (c : Cfg) : ∀ (as : List Act) (s : Sys), opened (run c s as) ≤ opened s + as.countP (fun a => decide (a = .process)) := by
  intro as
  induction as with
  | nil => intro s; simp [run_nil]
  | cons a as ih =>
    intro s
    rw [run_cons, List.countP_cons]
    have h1 := ih (step c s a)
    have h2 := opened_step c s a
    by_cases ha : a = .process
    · simp [ha] at h1 h2 ⊢; omega
    · simp [ha] at h1 h2 ⊢; omega

theorem opened_rounds {c : Cfg} (hv : c.Valid) : ∀ m k : Nat, opened (run c (init c) ((rounds m).take k)) ≤ 2 := by
  intro m
  induction m with
  | zero =>
    intro k
    have h1 := opened_run c ((rounds 0).take k) (init c)
    have h2 := (List.take_sublist k (rounds 0)).countP_le (p := fun a : Act => decide (a = .process))
    have h3 : opened (init c) = 0 := rfl
    have h4 : (rounds 0).countP (fun a => decide (a = .process)) = 1 := rfl
    omega
  | succ m ih =>
    intro k
    simp only [rounds, List.take_append]
    by_cases hk : k ≤ (rounds m).length
    · rw [Nat.sub_eq_zero_of_le hk]
      simpa using ih k
    · rw [List.take_of_length_le (by omega), run_app]
      obtain ⟨d, xs, l, hx, hd, hl, hr⟩ := rounds_run hv m
      have h1 := opened_run c ((round m).take (k - (rounds m).length)) (run c (init c) (rounds m))
      have h2 := (List.take_sublist (k - (rounds m).length) (round m)).countP_le (p := fun a : Act => decide (a = .process))
      have h3 : opened (run c (init c) (rounds m)) = 1 := by
        rw [hr]
        simp only [opened, List.countP_cons, Call.ended, Bool.not_false, if_true]
        have : xs.countP (fun cl => !cl.ended) = 0 := by
          rw [List.countP_eq_zero]
          intro x hxm
          simp [Call.ended, hd x hxm]
        simp only [Call.ended] at this
        rw [this]
      have h4 : (round m).countP (fun a => decide (a = .process)) = 1 := by simp [round]
      omega

/-- C91 is false, with no bound at all: whatever the capacity and the size of the queue, and though at no moment more than two `process()` calls run, one of
them may start any number of events. -/
theorem C91_unbounded_violation {c : Cfg} (hv : c.Valid) (n : Nat) : ∃ as : List Act,
    (∀ k, (run c (init c) (as.take k)).calls.countP (fun cl => !cl.ended) ≤ 2) ∧ starts 0 (run c (init c) as).log = n := by
  obtain ⟨d, xs, l, hx, hd, hl, hr⟩ := rounds_run hv n
  exact ⟨rounds n, opened_rounds hv n, by rw [hr]; exact hl⟩

/-! ### C91: the bound on all calls together is reached -/

/-- One event is queued, and call 0 takes it and starts it. -/
def oneStart : List Act := [.enqueue 0 (some (.finite 0)) none, .enqPut 0, .go 0 true .grant, .go 0 true .grant, .go 0 true .grant, .go 0 true .grant]

/-- `N` calls before the loop test, call 0 having started `m` events. -/
structure Ready (c : Cfg) (N m : Nat) (s : Sys) : Prop where
  queue : s.queue = []
  pending : s.pending = []
  cap : s.cap = c.queueCapacity - m
  len : s.calls.length = N
  pcs : ∀ i, i < N → ∃ p, s.calls[i]? = some ⟨p, .check⟩
  log : sinceReset s.log = m

theorem ready_zero (c : Cfg) : ∀ N, Ready c N 0 (run c (init c) (List.replicate N .process)) := by
  intro N
  have : ∀ (N : Nat) (s : Sys), run c s (List.replicate N .process) = { s with calls := s.calls ++ List.replicate N {} } := by
    intro N
    induction N with
    | zero => intro s; simp [run_nil]
    | succ N ih => intro s; rw [List.replicate_succ, run_cons, ih]; simp [step, List.replicate_succ]
  rw [this]
  refine ⟨rfl, rfl, by simp [init], by simp [init], ?_, rfl⟩
  intro i hi
  exact ⟨0, by simp [init, hi]⟩

theorem ready_step {c : Cfg} (hv : c.Valid) {N m : Nat} {s : Sys} (hN : 0 < N) (h : Ready c N m s) (hm : (m : Int) < c.queueCapacity) : Ready c N (m + 1) (run c s oneStart) := by
  obtain ⟨p, hp⟩ := h.pcs 0 hN
  have h1 : ¬ c.maxQueue ≤ 0 := by have := hv.2.2.1; omega
  have h2 : 0 < s.cap := by rw [h.cap]; omega
  have h3 : 0 < s.calls.length := by rw [h.len]; exact hN
  have hg : s.calls[0] = ⟨p, .check⟩ := (List.getElem?_eq_some_iff.1 hp).2
  have e : run c s oneStart = { s with
      cap := s.cap - 1, denials := s.denials.del 0, calls := s.calls.set 0 ⟨p + 1, .check⟩,
      log := s.log ++ [.enq (0, 0), .take 0 (0, 0), .grant 0 0, .start 0 (0, 0)] } := by
    simp [oneStart, run_cons, run_nil, step, enqueue, enqPut, h1, h2, h.queue, h.pending, hg, push_one, pop_one, advance, setCall, Sys.obs, List.getElem?_set, h3]
  rw [e]
  refine ⟨h.queue, h.pending, ?_, ?_, ?_, ?_⟩
  · simp only [h.cap]; omega
  · simp [h.len]
  · intro i hi
    by_cases h0 : i = 0
    · subst h0; exact ⟨p + 1, by simp [h3]⟩
    · obtain ⟨q, hq⟩ := h.pcs i hi
      exact ⟨q, by simp only; rw [List.getElem?_set_ne (by omega)]; exact hq⟩
  · have := h.log
    simp only [sinceReset, List.foldl_append] at this ⊢
    rw [this]; rfl

/-- `m` starts by call 0. -/
def someStarts : Nat → List Act
  | 0 => []
  | m + 1 => someStarts m ++ oneStart

theorem ready_starts {c : Cfg} (hv : c.Valid) {N : Nat} (hN : 0 < N) {s : Sys} (h : Ready c N 0 s) : ∀ m : Nat, (m : Int) ≤ c.queueCapacity → Ready c N m (run c s (someStarts m)) := by
  intro m
  induction m with
  | zero => intro _; exact h
  | succ m ih =>
    intro hm
    rw [someStarts, run_app]
    exact ready_step hv hN (ih (by omega)) (by omega)

/-- The first `j` of `N` calls are past the loop test. -/
structure Passing (N m j : Nat) (s : Sys) : Prop where
  queue : s.queue = [(0, 0)]
  pending : s.pending = []
  cap : s.cap = 1
  len : s.calls.length = N
  before : ∀ i, i < j → i < N → ∃ p, s.calls[i]? = some ⟨p, .getting⟩
  after : ∀ i, j ≤ i → i < N → ∃ p, s.calls[i]? = some ⟨p, .check⟩
  log : sinceReset s.log = m

theorem passing_zero {c : Cfg} (hv : c.Valid) {N m : Nat} {s : Sys} (h : Ready c N m s) (hm : (m : Int) + 1 = c.queueCapacity) :
    Passing N m 0 (run c s [.enqueue 0 (some (.finite 0)) none, .enqPut 0]) := by
  have h1 : ¬ c.maxQueue ≤ 0 := by have := hv.2.2.1; omega
  have e : run c s [.enqueue 0 (some (.finite 0)) none, .enqPut 0] = { s with queue := [(0, 0)], pending := [], log := s.log ++ [.enq (0, 0)] } := by
    simp [run_cons, run_nil, step, enqueue, enqPut, h1, h.queue, h.pending, push_one]
  rw [e]
  refine ⟨rfl, rfl, ?_, h.len, fun i hi => by omega, fun i _ hi => h.pcs i hi, ?_⟩
  · simp only [h.cap]; omega
  · have := h.log
    simp only [sinceReset, List.foldl_append] at this ⊢
    rw [this]; rfl

theorem passing_step {c : Cfg} {N m j : Nat} {s : Sys} (h : Passing N m j s) (hj : j < N) : Passing N m (j + 1) (run c s [.go j true .grant]) := by
  obtain ⟨p, hp⟩ := h.after j (Nat.le_refl _) hj
  have hl : j < s.calls.length := by rw [h.len]; exact hj
  have e : run c s [.go j true .grant] = { s with calls := s.calls.set j ⟨p, .getting⟩ } := by
    simp [run_cons, run_nil, step, hp, advance, h.cap, h.queue, setCall]
  rw [e]
  refine ⟨h.queue, h.pending, h.cap, by simp [h.len], ?_, ?_, h.log⟩
  · intro i hi hN
    by_cases hij : i = j
    · subst hij; exact ⟨p, by simp [hl]⟩
    · obtain ⟨q, hq⟩ := h.before i (by omega) hN
      exact ⟨q, by simp only; rw [List.getElem?_set_ne (by omega)]; exact hq⟩
  · intro i hi hN
    obtain ⟨q, hq⟩ := h.after i (by omega) hN
    exact ⟨q, by simp only; rw [List.getElem?_set_ne (by omega)]; exact hq⟩

/-- The first `j` calls make the loop test. -/
def tests : Nat → List Act
  | 0 => []
  | j + 1 => tests j ++ [.go j true .grant]

theorem passing_tests {c : Cfg} {N m : Nat} {s : Sys} (h : Passing N m 0 s) : ∀ j, j ≤ N → Passing N m j (run c s (tests j)) := by
  intro j
  induction j with
  | zero => intro _; exact h
  | succ j ih => intro hj; rw [tests, run_app]; exact passing_step (ih (by omega)) (by omega)

/-- The first `j` of `N` calls have started one more event. -/
structure Starting (N m j : Nat) (s : Sys) : Prop where
  queue : s.queue = [(0, 0)]
  pending : s.pending = []
  len : s.calls.length = N
  after : ∀ i, j ≤ i → i < N → ∃ p, s.calls[i]? = some ⟨p, .getting⟩
  log : sinceReset s.log = m + j

/-- Call `j` takes the event, is granted it and starts it; another event is queued. -/
def takeStart (j : Nat) : List Act := [.go j true .grant, .go j true .grant, .go j true .grant, .enqueue 0 (some (.finite 0)) none, .enqPut 0]

theorem starting_step {c : Cfg} (hv : c.Valid) {N m j : Nat} {s : Sys} (h : Starting N m j s) (hj : j < N) : Starting N m (j + 1) (run c s (takeStart j)) := by
  obtain ⟨p, hp⟩ := h.after j (Nat.le_refl _) hj
  have hl : j < s.calls.length := by rw [h.len]; exact hj
  have h1 : ¬ c.maxQueue ≤ 0 := by have := hv.2.2.1; omega
  have hg : s.calls[j] = ⟨p, .getting⟩ := (List.getElem?_eq_some_iff.1 hp).2
  have e : run c s (takeStart j) = { s with
      cap := s.cap - 1, denials := s.denials.del 0, calls := s.calls.set j ⟨p + 1, .check⟩,
      log := s.log ++ [.take j (0, 0), .grant j 0, .start j (0, 0), .enq (0, 0)] } := by
    simp [takeStart, run_cons, run_nil, step, enqueue, enqPut, h1, h.queue, h.pending, hg, push_one, pop_one, advance, setCall, Sys.obs, List.getElem?_set, hl]
  rw [e]
  refine ⟨h.queue, h.pending, by simp [h.len], ?_, ?_⟩
  · intro i hi hN
    obtain ⟨q, hq⟩ := h.after i (by omega) hN
    exact ⟨q, by simp only; rw [List.getElem?_set_ne (by omega)]; exact hq⟩
  · have := h.log
    simp only [sinceReset, List.foldl_append] at this ⊢
    rw [this]; simp [sinceStep]; omega

/-- The first `j` calls start an event each. -/
def allStart : Nat → List Act
  | 0 => []
  | j + 1 => allStart j ++ takeStart j

theorem starting_all {c : Cfg} (hv : c.Valid) {N m : Nat} {s : Sys} (h : Starting N m 0 s) : ∀ j, j ≤ N → Starting N m j (run c s (allStart j)) := by
  intro j
  induction j with
  | zero => intro _; exact h
  | succ j ih => intro hj; rw [allStart, run_app]; exact starting_step hv (ih (by omega)) (by omega)

/-- C91 (partial): the bound of `C91_overlap_partial` on the events started between two resets is reached, for every capacity, every size of the queue and every
number of calls. -/
theorem C91_tight_partial {c : Cfg} (hv : c.Valid) (N : Nat) (hN : 0 < N) : ∃ as : List Act, (run c (init c) as).calls.length = N ∧
    (sinceReset (run c (init c) as).log : Int) = c.queueCapacity + N - 1 := by
  have hc := hv.1
  obtain ⟨m, hm⟩ : ∃ m : Nat, (m : Int) + 1 = c.queueCapacity := ⟨(c.queueCapacity - 1).toNat, by omega⟩
  have h1 := ready_starts hv hN (ready_zero c N) m (by omega)
  have h2 := passing_tests (c := c) (passing_zero hv h1 hm) N (Nat.le_refl _)
  have h3 : Starting N m 0 _ := ⟨h2.queue, h2.pending, h2.len, fun i _ hi => h2.before i hi hi, h2.log⟩
  have h4 := starting_all hv h3 N (Nat.le_refl _)
  refine ⟨List.replicate N .process ++ someStarts m ++ [.enqueue 0 (some (.finite 0)) none, .enqPut 0] ++ tests N ++ allStart N, ?_⟩
  rw [run_app, run_app, run_app, run_app]
  exact ⟨h4.len, by rw [h4.log]; omega⟩

/-! ### C29: the bound on the length of the queue is reached -/

def isProcess (a : Act) : Bool := decide (a = .process)

def isEnqueue : Act → Bool
  | .enqueue _ _ _ => true
  | _ => false

theorem calls_step (c : Cfg) (s : Sys) (a : Act) : (step c s a).calls.length ≤ s.calls.length + (if isProcess a then 1 else 0) := by
  cases a with
  | enqueue id prio created =>
    have : (step c s (.enqueue id prio created)).calls = s.calls := by
      simp only [step, enqueue]
      split
      · rfl
      · split
        · rfl
        · rfl
        · split <;> rfl
    simp [this]
  | enqPut k =>
    have : (step c s (.enqPut k)).calls = s.calls := by
      simp only [step, enqPut]
      split <;> rfl
    simp [this]
  | process => simp [step, isProcess]
  | go i f p =>
    simp only [step]
    cases hi : s.calls[i]? with
    | none => exact Nat.le_add_right _ _
    | some cl =>
      rcases advance_calls c s i cl f p with h | ⟨h, cl', h'⟩
      · simp [h]
      · simp [h']
  | cancel i =>
    simp only [step]
    cases hi : s.calls[i]? with
    | none => exact Nat.le_add_right _ _
    | some cl =>
      simp only
      split
      · exact Nat.le_add_right _ _
      · simp [setCall]
  | stop => simp [step, Sys.obs]
  | forget id => simp [step, Sys.obs]

theorem advance_pending (c : Cfg) (s : Sys) (i : Nat) (cl : Call) (f : Bool) (p : Perm) : (advance c s i cl f p).pending = s.pending := by
  unfold advance
  split
  · split <;> rfl
  · split
    · rfl
    · split <;> rfl
  · split
    · rfl
    · simp only [deny]; split <;> rfl
    · rfl
  · rfl
  · rfl
  · rfl
  · split <;> rfl
  · rfl
  · rfl

theorem pending_step (c : Cfg) (s : Sys) (a : Act) : (step c s a).pending.length ≤ s.pending.length + (if isEnqueue a then 1 else 0) := by
  cases a with
  | enqueue id prio created =>
    simp only [step, enqueue, isEnqueue, if_true]
    split
    · simp [Sys.obs]
    · split
      · simp
      · simp [Sys.obs]
      · split <;> simp [Sys.obs]
  | enqPut k =>
    simp only [step, enqPut]
    split
    · simp
    · simp [isEnqueue, List.length_eraseIdx]; split <;> omega
  | process => simp [step]
  | go i f p =>
    simp only [step]
    split
    · simp
    · simp [advance_pending]
  | cancel i =>
    simp only [step]
    split
    · simp
    · split <;> simp [setCall]
  | stop => simp [step, Sys.obs]
  | forget id => simp [step, Sys.obs]

theorem sizes_run (c : Cfg) : ∀ (as : List Act) (s : Sys), (run c s as).calls.length ≤ s.calls.length + as.countP isProcess ∧
    (run c s as).pending.length ≤ s.pending.length + as.countP isEnqueue := by
  intro as
  induction as with
  | nil => intro s; simp [run_nil]
  | cons a as ih =>
    intro s
    rw [run_cons, List.countP_cons, List.countP_cons]
    have h1 := ih (step c s a)
    have h2 := calls_step c s a
    have h3 := pending_step c s a
    omega

theorem width_seg (c : Cfg) (s : Sys) (as : List Act) (a k : Nat) (h1 : s.calls.length + as.countP isProcess ≤ a) (h2 : s.pending.length + as.countP isEnqueue ≤ k) :
    Width c s as a k := by
  intro n
  have h := sizes_run c (as.take n) s
  have g1 := (List.take_sublist n as).countP_le (p := isProcess)
  have g2 := (List.take_sublist n as).countP_le (p := isEnqueue)
  have g3 : inHand (run c s (as.take n)) ≤ (run c s (as.take n)).calls.length := List.countP_le_length
  omega

theorem width_app {c : Cfg} {s : Sys} {as bs : List Act} {a k : Nat} (h1 : Width c s as a k) (h2 : Width c (run c s as) bs a k) : Width c s (as ++ bs) a k := by
  intro n
  rw [List.take_append]
  by_cases hn : n ≤ as.length
  · rw [Nat.sub_eq_zero_of_le hn]
    simpa using h1 n
  · rw [List.take_of_length_le (by omega), run_app]
    exact h2 _

theorem push_length (q : List Entry) (e : Entry) : (Heapq.push entryLt q e).length = q.length + 1 := by
  simpa using (Heapq.push_perm entryLt q e).length_eq

/-- Call `j` is made and takes the event `j`. -/
def holdOne (j : Nat) : List Act := [.enqueue j (some (.finite 0)) none, .enqPut 0, .process, .go j true .deny, .go j true .deny]

def holdAll : Nat → List Act
  | 0 => []
  | j + 1 => holdAll j ++ holdOne j

/-- The queue is filled. -/
def fill : Nat → List Act
  | 0 => []
  | n + 1 => fill n ++ [.enqueue 0 (some (.finite 0)) none, .enqPut 0]

/-- Many checks, then many puts. -/
def checks (k : Nat) : List Act := List.replicate k (.enqueue 0 (some (.finite 0)) none)

def puts (k : Nat) : List Act := List.replicate k (.enqPut 0)

/-- The first `j` calls are denied their event and put it back. -/
def backAll : Nat → List Act
  | 0 => []
  | j + 1 => backAll j ++ [.go j true .deny, .go j true .deny]

/-- `j` calls that each hold the event of their number; the first `b` have put it back. -/
structure Holding (c : Cfg) (j b : Nat) (s : Sys) : Prop where
  cap : s.cap = c.queueCapacity
  len : s.calls.length = j
  asks : ∀ i, b ≤ i → i < j → s.calls[i]? = some ⟨0, .asking (0, i)⟩
  fresh : ∀ i, b ≤ i → s.denials.get? i = none
  wf : s.denials.WF

theorem hold_all {c : Cfg} (hv : c.Valid) (k : Nat) (hk : 0 < k) (a : Nat) : ∀ j, j ≤ a → Holding c j 0 (run c (init c) (holdAll j)) ∧ (run c (init c) (holdAll j)).queue = [] ∧
    (run c (init c) (holdAll j)).pending = [] ∧ (run c (init c) (holdAll j)).denials = [] ∧ Width c (init c) (holdAll j) a k := by
  intro j
  induction j with
  | zero =>
    intro _
    exact ⟨⟨rfl, rfl, fun i _ h => absurd h (Nat.not_lt_zero _), fun i _ => rfl, List.Pairwise.nil⟩, rfl, rfl, rfl, width_seg _ _ _ _ _ (by simp [init, holdAll]) (by simp [init, holdAll])⟩
  | succ j ih =>
    intro hj
    obtain ⟨h, hq, hp, hd, hw⟩ := ih (by omega)
    have h1 : ¬ c.maxQueue ≤ 0 := by have := hv.2.2.1; omega
    have h2 : 0 < c.queueCapacity := by have := hv.1; omega
    have e : run c (run c (init c) (holdAll j)) (holdOne j) = { run c (init c) (holdAll j) with
        calls := (run c (init c) (holdAll j)).calls ++ [⟨0, .asking (0, j)⟩],
        log := (run c (init c) (holdAll j)).log ++ [.enq (0, j), .take j (0, j)] } := by
      generalize run c (init c) (holdAll j) = s at *
      have g1 : ∀ x : Call, (s.calls ++ [x])[j]? = some x := by intro x; simp [← h.len]
      have g2 : ∀ x y : Call, (s.calls ++ [x]).set j y = s.calls ++ [y] := by intro x y; simp [← h.len]
      simp [holdOne, run_cons, run_nil, step, enqueue, enqPut, h1, h2, hq, hp, push_one, pop_one, advance, setCall, Sys.obs, g1, g2, h.cap]
    rw [holdAll, run_app, e]
    refine ⟨⟨h.cap, by simp [h.len], ?_, h.fresh, h.wf⟩, hq, hp, hd, ?_⟩
    · intro i _ hi
      by_cases hij : i = j
      · subst hij
        simp only
        rw [List.getElem?_append_right (by rw [h.len]; exact Nat.le_refl _), h.len]
        simp
      · simp only
        rw [List.getElem?_append_left (by rw [h.len]; omega)]
        exact h.asks i (Nat.zero_le _) (by omega)
    · refine width_app hw (width_seg _ _ _ _ _ ?_ ?_)
      · have : (holdOne j).countP isProcess = 1 := rfl
        rw [h.len, this]; exact hj
      · have : (holdOne j).countP isEnqueue = 1 := rfl
        rw [hp, this]; simp; omega

theorem fill_run {c : Cfg} (a j k : Nat) (hk : 0 < k) (hja : j ≤ a) {s : Sys} (h : Holding c j 0 s) (hq : s.queue = []) (hp : s.pending = []) :
    ∀ n, n + 1 ≤ c.maxQueue → Holding c j 0 (run c s (fill n)) ∧ (run c s (fill n)).queue.length = n ∧ (run c s (fill n)).pending = [] ∧ Width c s (fill n) a k := by
  intro n
  induction n with
  | zero => intro _; exact ⟨h, by simp [fill, run_nil, hq], hp, width_seg _ _ _ _ _ (by rw [h.len]; simpa [fill] using hja) (by rw [hp]; simp [fill])⟩
  | succ n ih =>
    intro hn
    obtain ⟨g, gq, gp, gw⟩ := ih (by omega)
    have h1 : ¬ c.maxQueue ≤ (run c s (fill n)).queue.length := by omega
    rw [fill, run_app]
    have e : run c (run c s (fill n)) [.enqueue 0 (some (.finite 0)) none, .enqPut 0] = { run c s (fill n) with
        queue := Heapq.push entryLt (run c s (fill n)).queue (0, 0), pending := [], log := (run c s (fill n)).log ++ [.enq (0, 0)] } := by
      generalize run c s (fill n) = t at *
      simp [run_cons, run_nil, step, enqueue, enqPut, h1, gp]
    rw [e]
    refine ⟨⟨g.cap, g.len, g.asks, g.fresh, g.wf⟩, by simp only [push_length, gq], rfl, ?_⟩
    refine width_app gw (width_seg _ _ _ _ _ ?_ ?_)
    · rw [g.len]; simpa [isProcess] using hja
    · have : ([.enqueue 0 (some (.finite 0)) none, .enqPut 0] : List Act).countP isEnqueue = 1 := rfl
      rw [gp, this]; simp; omega

theorem checks_run {c : Cfg} : ∀ (k : Nat) (s : Sys), s.queue.length < c.maxQueue →
    run c s (checks k) = { s with pending := s.pending ++ List.replicate k (0, 0) } := by
  intro k
  induction k with
  | zero => intro s _; simp [checks, run_nil]
  | succ k ih =>
    intro s h
    have h1 : ¬ c.maxQueue ≤ s.queue.length := by omega
    simp only [checks, List.replicate_succ, run_cons] at ih ⊢
    have e : step c s (.enqueue 0 (some (.finite 0)) none) = { s with pending := s.pending ++ [(0, 0)] } := by simp [step, enqueue, h1]
    rw [e, ih { s with pending := s.pending ++ [(0, 0)] } h]
    simp

theorem puts_run {c : Cfg} : ∀ (k : Nat) (s : Sys), s.pending = List.replicate k (0, 0) →
    (run c s (puts k)).queue.length = s.queue.length + k ∧ (run c s (puts k)).pending = [] ∧ (run c s (puts k)).calls = s.calls ∧
    (run c s (puts k)).denials = s.denials ∧ (run c s (puts k)).cap = s.cap := by
  intro k
  induction k with
  | zero => intro s h; simp [puts, run_nil]; simpa using h
  | succ k ih =>
    intro s h
    simp only [puts, List.replicate_succ, run_cons] at ih ⊢
    have e : step c s (.enqPut 0) = { s with queue := Heapq.push entryLt s.queue (0, 0), pending := List.replicate k (0, 0), log := s.log ++ [.enq (0, 0)] } := by
      simp [step, enqPut, h, List.replicate_succ]
    rw [e]
    have := ih { s with queue := Heapq.push entryLt s.queue (0, 0), pending := List.replicate k (0, 0), log := s.log ++ [.enq (0, 0)] } rfl
    simp only [push_length] at this
    refine ⟨by omega, this.2⟩

theorem back_one {c : Cfg} {j b : Nat} {s : Sys} (h : Holding c j b s) (hb : b < j) :
    Holding c j (b + 1) (run c s [.go b true .deny, .go b true .deny]) ∧ (run c s [.go b true .deny, .go b true .deny]).queue.length = s.queue.length + 1 := by
  have hc := h.asks b (Nat.le_refl _) hb
  have hl : b < s.calls.length := by rw [h.len]; exact hb
  have hev : (evict c s.denials).get? b = none := by
    rw [Dict.get?_eq_none_iff]
    have := (Dict.get?_eq_none_iff _ _).1 (h.fresh b (Nat.le_refl _))
    intro hm
    apply this
    unfold evict at hm
    split at hm
    · simp only [Dict.keys, List.map_tail] at hm ⊢
      exact List.mem_of_mem_tail hm
    · exact hm
  have hn : nextCount c s.denials b = 1 := by simp [nextCount, hev]
  have e1 : step c s (.go b true .deny) = { s with
      denials := (evict c s.denials).set b 1, calls := s.calls.set b ⟨0, .requeueing (0, b) 1⟩, log := s.log ++ [.deny b b] } := by
    simp [step, hc, advance, deny, hn, setCall, Sys.obs]
  have hg : (s.calls.set b ⟨0, .requeueing (0, b) 1⟩)[b]? = some ⟨0, .requeueing (0, b) 1⟩ := by simp [hl]
  have e2 : run c s [.go b true .deny, .go b true .deny] = { s with
      denials := (evict c s.denials).set b 1, calls := s.calls.set b ⟨0, .draining⟩, queue := Heapq.push entryLt s.queue (1, b),
      log := s.log ++ [.deny b b, .requeue b (1, b)] } := by
    rw [run_cons, e1, run_cons, run_nil]
    simp only [step, hg, advance, setCall, Sys.obs]
    simp
  have hwf : (evict c s.denials).WF := by
    unfold evict
    split
    · have := h.wf
      cases hd : s.denials with
      | nil => simpa [hd] using this
      | cons x l =>
        rw [hd] at this
        simp only [Dict.WF, Dict.keys, List.map_cons, List.tail_cons, List.nodup_cons] at this ⊢
        exact this.2
    · exact h.wf
  rw [e2]
  refine ⟨⟨h.cap, by simp [h.len], ?_, ?_, Dict.set_wf hwf _ _⟩, by simp [push_length]⟩
  · intro i hi hij
    simp only
    rw [List.getElem?_set_ne (by omega)]
    exact h.asks i (by omega) hij
  · intro i hi
    simp only
    rw [Dict.get?_set, if_neg (by omega)]
    rw [Dict.get?_eq_none_iff]
    have := (Dict.get?_eq_none_iff _ _).1 (h.fresh i (by omega))
    intro hm
    apply this
    unfold evict at hm
    split at hm
    · simp only [Dict.keys, List.map_tail] at hm ⊢
      exact List.mem_of_mem_tail hm
    · exact hm

theorem back_all {c : Cfg} (a j k : Nat) (hja : j ≤ a) {s : Sys} (h : Holding c j 0 s) (hp : s.pending = []) : ∀ b, b ≤ j →
    Holding c j b (run c s (backAll b)) ∧ (run c s (backAll b)).queue.length = s.queue.length + b := by
  intro b
  induction b with
  | zero => intro _; exact ⟨h, rfl⟩
  | succ b ih =>
    intro hb
    obtain ⟨g, gq⟩ := ih (by omega)
    rw [backAll, run_app]
    obtain ⟨g1, g2⟩ := back_one g (by omega : b < j)
    exact ⟨g1, by rw [g2, gq]; omega⟩

theorem backAll_counts : ∀ b, (backAll b).countP isProcess = 0 ∧ (backAll b).countP isEnqueue = 0 := by
  intro b
  induction b with
  | zero => exact ⟨rfl, rfl⟩
  | succ b ih =>
    simp only [backAll, List.countP_append]
    rw [ih.1, ih.2]
    exact ⟨by simp [isProcess], by simp [isEnqueue]⟩

/-- C29 (partial): the bound of `C29_bound_partial` is reached, for every valid configuration and any numbers of overlapping calls. -/
theorem C29_tight_partial {c : Cfg} (hv : c.Valid) (a k : Nat) (hk : 0 < k) : ∃ as : List Act, Width c (init c) as a k ∧
    (run c (init c) as).queue.length + 1 = c.maxQueue + a + k := by
  have hm := hv.2.2.1
  obtain ⟨h1, q1, p1, d1, w1⟩ := hold_all hv k hk a a (Nat.le_refl _)
  obtain ⟨h2, q2, p2, w2⟩ := fill_run a a k hk (Nat.le_refl _) h1 q1 p1 (c.maxQueue - 1) (by omega)
  generalize hs2 : run c (run c (init c) (holdAll a)) (fill (c.maxQueue - 1)) = s2 at *
  have e3 := checks_run (c := c) k s2 (by omega)
  rw [p2, List.nil_append] at e3
  have w3 : Width c s2 (checks k) a k := by
    refine width_seg _ _ _ _ _ ?_ ?_
    · rw [h2.len]; simp [checks, List.countP_replicate, isProcess]
    · rw [p2]; simp [checks, List.countP_replicate, isEnqueue]
  have e4 := puts_run (c := c) k (run c s2 (checks k)) (by rw [e3])
  have w4 : Width c (run c s2 (checks k)) (puts k) a k := by
    refine width_seg _ _ _ _ _ ?_ ?_
    · rw [e3]; simp only [h2.len]; simp [puts, List.countP_replicate, isProcess]
    · rw [e3]; simp [puts, List.countP_replicate, isEnqueue]
  have h4 : Holding c a 0 (run c (run c s2 (checks k)) (puts k)) := by
    refine ⟨?_, ?_, ?_, ?_, ?_⟩
    · rw [e4.2.2.2.2, e3]; exact h2.cap
    · rw [e4.2.2.1, e3]; exact h2.len
    · rw [e4.2.2.1, e3]; exact h2.asks
    · rw [e4.2.2.2.1, e3]; exact h2.fresh
    · rw [e4.2.2.2.1, e3]; exact h2.wf
  have h5 := back_all a a k (Nat.le_refl _) h4 e4.2.1 a (Nat.le_refl _)
  have w5 : Width c (run c (run c s2 (checks k)) (puts k)) (backAll a) a k := by
    refine width_seg _ _ _ _ _ ?_ ?_
    · rw [h4.len, (backAll_counts a).1]; omega
    · rw [e4.2.1, (backAll_counts a).2]; simp
  refine ⟨holdAll a ++ (fill (c.maxQueue - 1) ++ (checks k ++ (puts k ++ backAll a))), ?_, ?_⟩
  · refine width_app w1 (width_app w2 ?_)
    rw [hs2]
    exact width_app w3 (width_app w4 w5)
  · rw [run_app, run_app, hs2, run_app, run_app, h5.2, e4.1, e3]
    simp only
    omega

end Verif.Processor
