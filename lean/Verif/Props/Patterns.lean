import Verif.Model.Patterns
import Verif.Lemmas.Fanout
import Verif.Py.ListLemmas

/-!
# retry, CompletionStream, race: C41, C42, C101, C102
-/

set_option linter.unusedSectionVars false
set_option linter.unusedSimpArgs false
set_option linter.unusedVariables false

namespace Verif.Patterns

open Verif.Fanout (Outcome St upd upd_same upd_other)

/-! ### C41: retry -/

/-- The delay asked for after the `k`-th failure, as the documentation puts it: `min(max_delay, base_delay * 2^(k-1))`, lengthened by the jitter draw. -/
def nominal (c : RCfg) (k : Nat) : Rat := min c.maxDelay (c.baseDelay * 2 ^ (k - 1))

/-- The first `k` rounds: each is a call and the sleep after its failure. -/
def rounds (c : RCfg) : Nat → List Ev
  | 0 => []
  | k + 1 => rounds c k ++ [.call k, .sleep (delay c (k + 1)) c.deadline]

/-- The deadline, if any, has not been reached. -/
def inTime (c : RCfg) (t : Rat) : Prop := ∀ d, c.deadline = some d → t < d

theorem outOfTime_false {c : RCfg} {k : Nat} : outOfTime c k = false ↔ inTime c (c.pre k) := by
  unfold outOfTime inTime
  cases h : c.deadline with
  | none => simp
  | some d =>
    simp only [decide_eq_false_iff_not, Option.some.injEq, forall_eq']
    constructor
    · intro h; grind
    · intro h; grind

theorem overslept_false {c : RCfg} {k : Nat} : overslept c k = false ↔ inTime c (c.post k) := by
  unfold overslept inTime
  cases h : c.deadline with
  | none => simp
  | some d =>
    simp only [decide_eq_false_iff_not, Option.some.injEq, forall_eq']
    constructor
    · intro h; grind
    · intro h; grind

/-- What a run of `retry` looks like: `k` failed rounds, then a last call `k`, possibly followed by a sleep that hit the deadline. -/
inductive Shape (c : RCfg) : Nat → List Ev → End → Prop
  | success {k v} : c.script k = .ok v → Shape c k [.call k] (.returned v)
  | other {k e} : c.script k = .other e → Shape c k [.call k] (.raised e)
  | exhausted {k e} : c.script k = .retryable e → c.attempts ≤ ((k + 1 : Nat) : Int) → Shape c k [.call k] (.raised e)
  | late {k e} : c.script k = .retryable e → ((k + 1 : Nat) : Int) < c.attempts → ¬ inTime c (c.pre (k + 1)) → Shape c k [.call k] (.raised e)
  | overslept {k e} : c.script k = .retryable e → ((k + 1 : Nat) : Int) < c.attempts → ¬ inTime c (c.post (k + 1)) →
      Shape c k [.call k, .sleep (delay c (k + 1)) c.deadline] (.raised e)

/-- Round `i` was a failure that allows another attempt. -/
def goesOn (c : RCfg) (i : Nat) : Prop :=
  (∃ e, c.script i = .retryable e) ∧ ((i + 1 : Nat) : Int) < c.attempts ∧ inTime c (c.pre (i + 1)) ∧ inTime c (c.post (i + 1))

theorem loop_shape (c : RCfg) (fuel attempt : Nat) (hf : c.attempts ≤ ((attempt + fuel : Nat) : Int)) :
    ∃ k last, attempt ≤ k ∧ (∀ i, attempt ≤ i → i < k → goesOn c i) ∧ Shape c k last (loop c fuel attempt).2 ∧
      rounds c attempt ++ (loop c fuel attempt).1 = rounds c k ++ last := by
  induction fuel generalizing attempt with
  | zero =>
    unfold loop
    cases h : c.script attempt with
    | ok v => exact ⟨attempt, _, Nat.le_refl _, fun i h1 h2 => by omega, .success h, rfl⟩
    | other e => exact ⟨attempt, _, Nat.le_refl _, fun i h1 h2 => by omega, .other h, rfl⟩
    | retryable e =>
      have : c.attempts ≤ ((attempt + 1 : Nat) : Int) := by omega
      simp only [if_pos this]
      exact ⟨attempt, _, Nat.le_refl _, fun i h1 h2 => by omega, .exhausted h this, rfl⟩
  | succ fuel ih =>
    unfold loop
    cases h : c.script attempt with
    | ok v => exact ⟨attempt, _, Nat.le_refl _, fun i h1 h2 => by omega, .success h, rfl⟩
    | other e => exact ⟨attempt, _, Nat.le_refl _, fun i h1 h2 => by omega, .other h, rfl⟩
    | retryable e =>
      by_cases ha : c.attempts ≤ ((attempt + 1 : Nat) : Int)
      · simp only [if_pos ha]
        exact ⟨attempt, _, Nat.le_refl _, fun i h1 h2 => by omega, .exhausted h ha, rfl⟩
      · simp only [if_neg ha]
        have ha' : ((attempt + 1 : Nat) : Int) < c.attempts := by omega
        by_cases hl : outOfTime c (attempt + 1) = true
        · simp only [if_pos hl]
          refine ⟨attempt, _, Nat.le_refl _, fun i h1 h2 => by omega, .late h ha' ?_, rfl⟩
          rw [← outOfTime_false, hl]; simp
        · simp only [if_neg hl]
          by_cases ho : overslept c (attempt + 1) = true
          · simp only [if_pos ho]
            refine ⟨attempt, _, Nat.le_refl _, fun i h1 h2 => by omega, .overslept h ha' ?_, rfl⟩
            rw [← overslept_false, ho]; simp
          · simp only [if_neg ho]
            obtain ⟨k, last, h1, h2, h3, h4⟩ := ih (attempt + 1) (by omega)
            refine ⟨k, last, by omega, ?_, h3, ?_⟩
            · intro i hi1 hi2
              by_cases e' : i = attempt
              · subst e'
                exact ⟨⟨e, h⟩, ha', outOfTime_false.1 (Bool.eq_false_iff.2 hl), overslept_false.1 (Bool.eq_false_iff.2 ho)⟩
              · exact h2 i (by omega) hi2
            · rw [← h4, rounds]
              simp

/-- C41, complete description of every run: some `k` failed rounds, each allowed to go on, then the last one. -/
theorem C41_shape (c : RCfg) : ∃ k last, (∀ i, i < k → goesOn c i) ∧ Shape c k last (retry c).2 ∧ (retry c).1 = rounds c k ++ last := by
  obtain ⟨k, last, _, h2, h3, h4⟩ := loop_shape c c.attempts.toNat 0 (by omega)
  exact ⟨k, last, fun i hi => h2 i (Nat.zero_le _) hi, h3, h4⟩

/-- Number of calls made. -/
def calls (evs : List Ev) : List Nat := evs.filterMap (fun e => match e with | .call k => some k | _ => none)

/-- The sleeps asked for. -/
def sleeps (evs : List Ev) : List (Rat × Option Rat) := evs.filterMap (fun e => match e with | .sleep s d => some (s, d) | _ => none)

theorem calls_rounds (c : RCfg) (k : Nat) : calls (rounds c k) = List.range k := by
  induction k with
  | zero => rfl
  | succ k ih =>
    rw [rounds, calls, List.filterMap_append]
    unfold calls at ih
    rw [ih, List.range_succ]
    rfl

theorem sleeps_rounds (c : RCfg) (k : Nat) : sleeps (rounds c k) = (List.range k).map (fun i => (delay c (i + 1), c.deadline)) := by
  induction k with
  | zero => rfl
  | succ k ih =>
    rw [rounds, sleeps, List.filterMap_append]
    unfold sleeps at ih
    rw [ih, List.range_succ, List.map_append]
    rfl

theorem Shape.calls {c : RCfg} {k : Nat} {last : List Ev} {e : End} (h : Shape c k last e) : calls last = [k] := by
  cases h <;> rfl

theorem calls_shape {c : RCfg} {k : Nat} {last : List Ev} (h2 : Shape c k last (retry c).2) (h3 : (retry c).1 = rounds c k ++ last) :
    calls (retry c).1 = List.range (k + 1) := by
  have h4 := calls_rounds c k
  have h5 := h2.calls
  rw [h3]
  unfold Patterns.calls at h4 h5 ⊢
  rw [List.filterMap_append, h4, h5, List.range_succ]

theorem calls_eq (c : RCfg) : ∃ k, calls (retry c).1 = List.range (k + 1) ∧ (∀ i, i < k → goesOn c i) := by
  obtain ⟨k, last, h1, h2, h3⟩ := C41_shape c
  exact ⟨k, calls_shape h2 h3, h1⟩

/-- C41: at most `attempts` calls (at least one, also for `attempts ≤ 0`). -/
theorem C41_attempts (c : RCfg) : ((calls (retry c).1).length : Int) ≤ max 1 c.attempts ∧ 1 ≤ (calls (retry c).1).length := by
  obtain ⟨k, h1, h2⟩ := calls_eq c
  rw [h1, List.length_range]
  refine ⟨?_, by omega⟩
  cases k with
  | zero => omega
  | succ k =>
    have := (h2 k (by omega)).2.1
    omega

/-- C41: the run ends. -/
theorem C41_terminates (c : RCfg) : (retry c).2 ≠ .fuel := by
  obtain ⟨k, last, _, h2, _⟩ := C41_shape c
  intro h
  rw [h] at h2
  cases h2

/-- C41: a value is returned exactly when the last call succeeded, all earlier ones having failed with a retryable error; the first success stops the loop. -/
theorem C41_success (c : RCfg) (v : Nat) (h : (retry c).2 = .returned v) :
    ∃ k, calls (retry c).1 = List.range (k + 1) ∧ c.script k = .ok v ∧ ∀ i, i < k → ∃ e, c.script i = .retryable e := by
  obtain ⟨k, last, h1, h2, h3⟩ := C41_shape c
  obtain ⟨k', h4, h5⟩ := calls_eq c
  have hk := calls_shape h2 h3
  refine ⟨k, hk, ?_, fun i hi => (h1 i hi).1⟩
  rw [h] at h2
  cases h2 with
  | success hs => exact hs

/-- C41: what is raised is the error of the last call; it is raised only if it is not retryable, the attempts are used up, or the deadline was reached. -/
theorem C41_failure (c : RCfg) (e : Nat) (h : (retry c).2 = .raised e) :
    ∃ k, calls (retry c).1 = List.range (k + 1) ∧
      (c.script k = .other e ∨
       (c.script k = .retryable e ∧ (c.attempts ≤ ((k + 1 : Nat) : Int) ∨ ¬ inTime c (c.pre (k + 1)) ∨ ¬ inTime c (c.post (k + 1))))) := by
  obtain ⟨k, last, h1, h2, h3⟩ := C41_shape c
  refine ⟨k, ?_, ?_⟩
  · exact calls_shape h2 h3
  · rw [h] at h2
    cases h2 with
    | other hs => exact Or.inl hs
    | exhausted hs ha => exact Or.inr ⟨hs, Or.inl ha⟩
    | late hs _ ha => exact Or.inr ⟨hs, Or.inr (Or.inl ha)⟩
    | overslept hs _ ha => exact Or.inr ⟨hs, Or.inr (Or.inr ha)⟩

/-- C41: an error outside `retry_on` ends the run with that error: no call follows it. -/
theorem C41_other_not_retried (c : RCfg) (k : Nat) (e : Nat) (hk : k ∈ calls (retry c).1) (h : c.script k = .other e) :
    (retry c).2 = .raised e ∧ calls (retry c).1 = List.range (k + 1) := by
  obtain ⟨k', h1, h2⟩ := calls_eq c
  have hkk : k = k' := by
    rw [h1, List.mem_range] at hk
    rcases Nat.lt_or_ge k k' with hlt | hge
    · obtain ⟨⟨e', he⟩, _⟩ := h2 k hlt
      rw [h] at he; cases he
    · omega
  subst hkk
  refine ⟨?_, h1⟩
  cases hr : (retry c).2 with
  | fuel => exact absurd hr (C41_terminates c)
  | returned v =>
    obtain ⟨k2, h3, h4, _⟩ := C41_success c v hr
    rw [h1] at h3
    have := congrArg List.length h3
    simp only [List.length_range] at this
    have : k = k2 := by omega
    subst this
    rw [h] at h4; cases h4
  | raised e' =>
    obtain ⟨k2, h3, h4⟩ := C41_failure c e' hr
    rw [h1] at h3
    have := congrArg List.length h3
    simp only [List.length_range] at this
    have : k = k2 := by omega
    subst this
    rcases h4 with h4 | ⟨h4, _⟩
    · rw [h] at h4; cases h4; rfl
    · rw [h] at h4; cases h4

/-- C41, delays: the `k`-th sleep asks for `min(max_delay, base_delay*2^(k-1))`, lengthened by at most the fraction `jitter`, and is limited by the ambient deadline. -/
theorem C41_delays (c : RCfg) (hj : 0 ≤ c.jitter) (hd : ∀ k, 0 ≤ c.draw k ∧ c.draw k ≤ 1) (hb : 0 ≤ c.baseDelay) (hm : 0 ≤ c.maxDelay)
    (i : Nat) (s : Rat) (w : Option Rat) (h : (sleeps (retry c).1)[i]? = some (s, w)) :
    nominal c (i + 1) ≤ s ∧ s ≤ nominal c (i + 1) * (1 + c.jitter) ∧ w = c.deadline ∧ (c.jitter = 0 → s = nominal c (i + 1)) := by
  have hnn : 0 ≤ nominal c (i + 1) := by
    have h2 : (0 : Rat) ≤ 2 ^ (i + 1 - 1) := by
      have : (0 : Rat) < 2 ^ (i + 1 - 1) := Rat.pow_pos (by decide)
      exact Rat.le_of_lt this
    have h3 : 0 ≤ c.baseDelay * 2 ^ (i + 1 - 1) := Rat.mul_nonneg hb h2
    unfold nominal
    rw [Rat.min_def]
    split <;> assumption
  have hdelay : ∀ s', s' = delay c (i + 1) → nominal c (i + 1) ≤ s' ∧ s' ≤ nominal c (i + 1) * (1 + c.jitter) ∧ (c.jitter = 0 → s' = nominal c (i + 1)) := by
    intro s' e
    unfold delay at e
    obtain ⟨d0, d1⟩ := hd (i + 1)
    by_cases hj0 : c.jitter = 0
    · rw [if_neg (by simp [hj0])] at e
      have e : s' = nominal c (i + 1) := e
      refine ⟨by rw [e]; exact Rat.le_refl, ?_, fun _ => e⟩
      rw [e, hj0]
      have : nominal c (i + 1) * (1 + 0) = nominal c (i + 1) := by grind
      rw [this]; exact Rat.le_refl
    · rw [if_pos hj0] at e
      have e : s' = nominal c (i + 1) * (1 + c.draw (i + 1) * c.jitter) := e
      have p0 : 0 ≤ c.draw (i + 1) * c.jitter := Rat.mul_nonneg d0 hj
      have p1 : c.draw (i + 1) * c.jitter ≤ c.jitter := by
        have := Rat.mul_le_mul_of_nonneg_right d1 hj
        grind
      refine ⟨?_, ?_, fun h => absurd h hj0⟩
      · rw [e]
        have := Rat.mul_le_mul_of_nonneg_left (a := 1) (b := 1 + c.draw (i + 1) * c.jitter) (by grind) hnn
        grind
      · rw [e]
        exact Rat.mul_le_mul_of_nonneg_left (by grind) hnn
  obtain ⟨k, last, h1, h2, h3⟩ := C41_shape c
  have hs : ∃ m, sleeps (retry c).1 = (List.range m).map (fun i => (delay c (i + 1), c.deadline)) := by
    rw [h3]
    have hr := sleeps_rounds c k
    unfold sleeps at hr ⊢
    rw [List.filterMap_append, hr]
    generalize (retry c).2 = fin at h2
    cases h2 with
    | success => exact ⟨k, by simp⟩
    | other => exact ⟨k, by simp⟩
    | exhausted => exact ⟨k, by simp⟩
    | late => exact ⟨k, by simp⟩
    | overslept => exact ⟨k + 1, by rw [List.range_succ, List.map_append]; rfl⟩
  obtain ⟨m, hs⟩ := hs
  rw [hs, List.getElem?_map] at h
  by_cases him : i < m
  · rw [List.getElem?_range him] at h
    simp only [Option.map_some, Option.some.injEq, Prod.mk.injEq] at h
    obtain ⟨a, b, d⟩ := hdelay s h.1.symm
    exact ⟨a, b, h.2.symm, d⟩
  · rw [List.getElem?_eq_none (by simpa using him)] at h
    simp at h

/-- C41, deadline: after a failure the function is called again only if the deadline was ahead both before and after the sleep. -/
theorem C41_deadline (c : RCfg) (d : Rat) (hd : c.deadline = some d) (k : Nat) (hk : k + 1 ∈ calls (retry c).1) :
    c.pre (k + 1) < d ∧ c.post (k + 1) < d := by
  obtain ⟨k', h1, h2⟩ := calls_eq c
  rw [h1, List.mem_range] at hk
  have := h2 k (by omega)
  exact ⟨this.2.2.1 d hd, this.2.2.2 d hd⟩

/-- Non-vacuity: two failures, then success; no jitter, no deadline. -/
def demo : RCfg :=
  { attempts := 3, baseDelay := 1, maxDelay := 3/2, jitter := 0, deadline := none,
    script := fun k => if k < 2 then .retryable k else .ok 7, draw := fun _ => 0, pre := fun _ => 0, post := fun _ => 0 }

example : retry demo = ([.call 0, .sleep 1 none, .call 1, .sleep (3/2) none, .call 2], .returned 7) := by decide +kernel

example : retry { demo with deadline := some 10, post := fun k => if k = 1 then 5 else 10 } =
    ([.call 0, .sleep 1 (some 10), .call 1, .sleep (3/2) (some 10)], .raised 1) := by decide +kernel

/-! ### C42: CompletionStream -/

structure SInv (cfg : SCfg) (s : Stream) : Prop where
  log : s.got ++ s.buf = s.log
  mem : ∀ i, (i, cfg.val i) ∈ s.log ↔ i < cfg.n ∧ s.st i = .ended
  vals : ∀ p ∈ s.log, p.2 = cfg.val p.1
  nodup : (s.log.map (·.1)).Nodup
  bound : ∀ i, cfg.n ≤ i → s.st i = .waiting

theorem sinv_step (cfg : SCfg) (s : Stream) (a : SAct) (h : SInv cfg s) : SInv cfg (s.step cfg a) := by
  cases a with
  | start i =>
    simp only [Stream.step]
    split
    · next hc =>
      refine ⟨h.log, ?_, h.vals, h.nodup, ?_⟩
      · intro j
        simp only
        rw [h.mem j]
        by_cases e : j = i
        · subst e; rw [upd_same, hc.2.1]; simp
        · rw [upd_other _ _ e]
      · intro j hj
        simp only
        rw [upd_other _ _ (by omega)]; exact h.bound j hj
    · exact h
  | finish i =>
    simp only [Stream.step]
    split
    · next hc =>
      have hni : i ∉ s.log.map (·.1) := by
        intro hm
        rw [List.mem_map] at hm
        obtain ⟨p, hp, e⟩ := hm
        have hv := h.vals p hp
        have : (i, cfg.val i) ∈ s.log := by
          rw [← e, ← hv]; exact hp
        have := ((h.mem i).1 this).2
        rw [hc.2] at this; cases this
      refine ⟨?_, ?_, ?_, ?_, ?_⟩
      · simp only
        rw [← List.append_assoc, h.log]
      · intro j
        simp only [List.mem_append, List.mem_singleton]
        rw [h.mem j]
        by_cases e : j = i
        · subst e; rw [upd_same]; simp [hc.1]
        · rw [upd_other _ _ e]
          constructor
          · rintro (h | h)
            · exact h
            · exact absurd (congrArg Prod.fst h) e
          · exact Or.inl
      · intro p hp
        simp only [List.mem_append, List.mem_singleton] at hp
        rcases hp with hp | rfl
        · exact h.vals p hp
        · rfl
      · simp only [List.map_append, List.map_cons, List.map_nil]
        rw [List.nodup_append]
        refine ⟨h.nodup, by simp, ?_⟩
        intro a ha b hb
        simp at hb; subst hb
        exact fun e => hni (e ▸ ha)
      · intro j hj
        simp only
        rw [upd_other _ _ (by omega)]; exact h.bound j hj
    · exact h
  | next =>
    simp only [Stream.step]
    split
    · split
      · exact h
      · next x b hb =>
        refine ⟨?_, h.mem, h.vals, h.nodup, h.bound⟩
        simp only
        rw [← h.log, hb]; simp
    · exact h
  | leave => exact ⟨h.log, h.mem, h.vals, h.nodup, h.bound⟩

theorem sinv_run (cfg : SCfg) (acts : List SAct) : SInv cfg (Stream.run cfg acts) := by
  have key : ∀ (acts : List SAct) (s : Stream), SInv cfg s → SInv cfg (acts.foldl (Stream.step cfg) s) := by
    intro acts
    induction acts with
    | nil => intro s h; exact h
    | cons a acts ih => intro s h; exact ih _ (sinv_step cfg s a h)
  exact key acts {} ⟨rfl, fun i => by simp, fun p hp => (by cases hp), List.nodup_nil, fun i _ => rfl⟩

/-- C42, at every point: what was yielded so far are the first completions, in completion order, each with its index, none twice. -/
theorem C42_prefix (cfg : SCfg) (acts : List SAct) :
    (Stream.run cfg acts).got <+: (Stream.run cfg acts).log ∧ ((Stream.run cfg acts).got.map (·.1)).Nodup ∧
      ∀ p ∈ (Stream.run cfg acts).got, p.1 < cfg.n ∧ p.2 = cfg.val p.1 := by
  have h := sinv_run cfg acts
  have hp : (Stream.run cfg acts).got <+: (Stream.run cfg acts).log := ⟨_, h.log⟩
  refine ⟨hp, ?_, ?_⟩
  · exact List.Nodup.sublist (List.Sublist.map _ hp.sublist) h.nodup
  · intro p hpm
    have hm := hp.subset hpm
    have hv := h.vals p hm
    refine ⟨?_, hv⟩
    have : (p.1, cfg.val p.1) ∈ (Stream.run cfg acts).log := by rw [← hv]; exact hm
    exact ((h.mem p.1).1 this).1

/-- C42, at the end: when the iteration has stopped by itself (`n` results), it yielded exactly one pair per awaitable, in completion order. -/
theorem C42_complete (cfg : SCfg) (acts : List SAct) (hend : (Stream.run cfg acts).got.length = cfg.n) :
    (Stream.run cfg acts).got = (Stream.run cfg acts).log ∧
      List.Perm ((Stream.run cfg acts).got) ((List.range cfg.n).map (fun i => (i, cfg.val i))) := by
  have h := sinv_run cfg acts
  obtain ⟨hp, hn, hv⟩ := C42_prefix cfg acts
  have hperm : List.Perm ((Stream.run cfg acts).got.map (·.1)) (List.range cfg.n) := by
    apply perm_of_nodup_subset hn
    · intro a ha
      rw [List.mem_map] at ha
      obtain ⟨p, hp, rfl⟩ := ha
      exact List.mem_range.2 (hv p hp).1
    · simp [hend]
  have hlog : (Stream.run cfg acts).log.length ≤ cfg.n := by
    have hsub : (Stream.run cfg acts).log.map (·.1) ⊆ List.range cfg.n := by
      intro a ha
      rw [List.mem_map] at ha
      obtain ⟨p, hp, rfl⟩ := ha
      have : (p.1, cfg.val p.1) ∈ (Stream.run cfg acts).log := by rw [← h.vals p hp]; exact hp
      exact List.mem_range.2 ((h.mem p.1).1 this).1
    have := length_le_of_nodup_subset h.nodup hsub
    simpa using this
  refine ⟨hp.eq_of_length_le (by rw [hend]; exact hlog), ?_⟩
  have hmap : (Stream.run cfg acts).got = ((Stream.run cfg acts).got.map (·.1)).map (fun i => (i, cfg.val i)) := by
    rw [List.map_map]
    have : (Stream.run cfg acts).got.map ((fun i => (i, cfg.val i)) ∘ fun x => x.1) = (Stream.run cfg acts).got.map id := by
      apply List.map_congr_left
      intro p hp
      have := (hv p hp).2
      simp only [Function.comp, id]
      rw [← this]
    rw [this, List.map_id]
  rw [hmap]
  exact hperm.map _

/-- C42, concurrency: with a positive `limit` at most that many awaitables run at any time. -/
theorem C42_limit (cfg : SCfg) (k : Nat) (hk : cfg.limit = some (k + 1)) (acts : List SAct) :
    ((List.range cfg.n).filter (fun i => (Stream.run cfg acts).st i == .running)).length ≤ k + 1 := by
  have stepB : ∀ (s : Stream) (a : SAct), (s.running cfg).length ≤ k + 1 → ((s.step cfg a).running cfg).length ≤ k + 1 := by
    intro s a h
    cases a with
    | start i =>
      simp only [Stream.step]
      split
      · next hc =>
        have hf := hc.2.2
        simp only [Stream.slotFree, hk, decide_eq_true_eq] at hf
        have := Fanout.filter_upd_length (List.range cfg.n) List.nodup_range s.st i .running
        simp only [Stream.running] at hf ⊢
        omega
      · exact h
    | finish i =>
      simp only [Stream.step]
      split
      · simp only [Stream.running]
        exact Nat.le_trans (Fanout.filter_upd_ended _ _ _ _ (by decide)) h
      · exact h
    | next =>
      simp only [Stream.step]
      split
      · split <;> exact h
      · exact h
    | leave => exact h
  have key : ∀ (acts : List SAct) (s : Stream), (s.running cfg).length ≤ k + 1 → ((acts.foldl (Stream.step cfg) s).running cfg).length ≤ k + 1 := by
    intro acts
    induction acts with
    | nil => intro s h; exact h
    | cons a acts ih => intro s h; exact ih _ (stepB s a h)
  refine key acts {} ?_
  have h2 : Stream.running cfg {} = [] := by
    rw [Stream.running, List.filter_eq_nil_iff]
    intro a _ h; cases h
  rw [h2]; exact Nat.zero_le _

/-! C42, progress: whatever has happened, as long as the block was not left the iteration can be brought to its end;
no schedule leads to a state where nothing can go on. -/

/-- Work left in a task. -/
def weight : St → Nat
  | .waiting => 2
  | .running => 1
  | .ended => 0

theorem sum_lt {α : Type} (f g : α → Nat) : ∀ (l : List α), (∀ x ∈ l, f x ≤ g x) → (∃ x ∈ l, f x < g x) → (l.map f).sum < (l.map g).sum
  | [], _, h => by obtain ⟨x, hx, _⟩ := h; simp at hx
  | y :: l, hle, h => by
    simp only [List.map_cons, List.sum_cons]
    have h1 := hle y (by simp)
    have h2 : (l.map f).sum ≤ (l.map g).sum := by
      have : ∀ (l : List α), (∀ x ∈ l, f x ≤ g x) → (l.map f).sum ≤ (l.map g).sum := by
        intro l
        induction l with
        | nil => intro _; simp
        | cons z l ih =>
          intro hz
          simp only [List.map_cons, List.sum_cons]
          have := hz z (by simp)
          have := ih (fun x hx => hz x (by simp [hx]))
          omega
      exact this l (fun x hx => hle x (by simp [hx]))
    obtain ⟨x, hx, hlt⟩ := h
    rcases List.mem_cons.1 hx with rfl | hx
    · omega
    · have := sum_lt f g l (fun x hx => hle x (by simp [hx])) ⟨x, hx, hlt⟩
      omega

/-- Work left in all tasks. -/
def work (n : Nat) (st : Nat → St) : Nat := ((List.range n).map (fun i => weight (st i))).sum

theorem work_upd {n : Nat} {st : Nat → St} {i : Nat} {v : St} (hi : i < n) (hv : weight v < weight (st i)) : work n (upd st i v) < work n st := by
  unfold work
  refine sum_lt _ _ _ ?_ ⟨i, List.mem_range.2 hi, by simp [upd, hv]⟩
  intro j _
  by_cases hj : j = i
  · subst hj; simp [upd]; omega
  · simp [upd, hj]

theorem stream_progress (cfg : SCfg) (m : Nat) : ∀ (acts : List SAct), (Stream.run cfg acts).left = false →
    work cfg.n (Stream.run cfg acts).st + (cfg.n - (Stream.run cfg acts).got.length) ≤ m →
    ∃ more, (∀ a ∈ more, a ≠ .leave) ∧ (Stream.run cfg (acts ++ more)).got.length = cfg.n := by
  induction m with
  | zero =>
    intro acts hl hm
    refine ⟨[], by simp, ?_⟩
    rw [List.append_nil]
    have h := (C42_prefix cfg acts)
    have hle : (Stream.run cfg acts).got.length ≤ cfg.n := by
      have := length_le_of_nodup_subset h.2.1 (m := List.range cfg.n) (by
        intro a ha
        obtain ⟨p, hp, rfl⟩ := List.mem_map.1 ha
        exact List.mem_range.2 (h.2.2 p hp).1)
      simpa using this
    omega
  | succ m ih =>
    intro acts hl hm
    have h := sinv_run cfg acts
    have hpre := C42_prefix cfg acts
    have hsub : (Stream.run cfg acts).log.map (·.1) ⊆ List.range cfg.n := by
      intro a ha
      obtain ⟨p, hp, rfl⟩ := List.mem_map.1 ha
      have : (p.1, cfg.val p.1) ∈ (Stream.run cfg acts).log := by rw [← h.vals p hp]; exact hp
      exact List.mem_range.2 ((h.mem p.1).1 this).1
    have hloglen : (Stream.run cfg acts).log.length ≤ cfg.n := by
      have := length_le_of_nodup_subset h.nodup hsub
      simpa using this
    have hlen : (Stream.run cfg acts).got.length + (Stream.run cfg acts).buf.length = (Stream.run cfg acts).log.length := by
      rw [← h.log, List.length_append]
    rcases Nat.lt_or_ge (Stream.run cfg acts).got.length cfg.n with hlt | hge
    · -- one more action
      have cont : ∀ a, a ≠ SAct.leave → ((Stream.run cfg acts).step cfg a).left = false →
          work cfg.n ((Stream.run cfg acts).step cfg a).st + (cfg.n - ((Stream.run cfg acts).step cfg a).got.length) ≤ m →
          ∃ more, (∀ a ∈ more, a ≠ .leave) ∧ (Stream.run cfg (acts ++ more)).got.length = cfg.n := by
        intro a ha h1 h2
        have hrun : Stream.run cfg (acts ++ [a]) = (Stream.run cfg acts).step cfg a := by
          simp [Stream.run, List.foldl_append]
        obtain ⟨more, hm1, hm2⟩ := ih (acts ++ [a]) (by rw [hrun]; exact h1) (by rw [hrun]; exact h2)
        refine ⟨a :: more, ?_, by simpa using hm2⟩
        intro b hb
        rcases List.mem_cons.1 hb with rfl | hb
        · exact ha
        · exact hm1 b hb
      generalize hs : Stream.run cfg acts = s at *
      by_cases hrun : ∃ i, i < cfg.n ∧ s.st i = .running
      · obtain ⟨i, hi, hst⟩ := hrun
        refine cont (.finish i) (by simp) ?_ ?_
        · simp only [Stream.step, hi, hst, and_self, if_true]; exact hl
        · simp only [Stream.step, hi, hst, and_self, if_true]
          have := work_upd (st := s.st) (v := .ended) hi (by rw [hst]; decide)
          omega
      · cases hb : s.buf with
        | cons x b =>
          refine cont .next (by simp) ?_ ?_
          · simp only [Stream.step, hl, hlt, and_self, if_true, hb]
          · simp only [Stream.step, hl, hlt, and_self, if_true, hb, List.length_append, List.length_singleton]
            omega
        | nil =>
          by_cases hw : ∃ i, i < cfg.n ∧ s.st i = .waiting
          · obtain ⟨i, hi, hst⟩ := hw
            have hfree : s.slotFree cfg = true := by
              have hr : s.running cfg = [] := by
                rw [Stream.running, List.filter_eq_nil_iff]
                intro j hj he
                exact hrun ⟨j, List.mem_range.1 hj, by simpa using he⟩
              unfold Stream.slotFree
              split
              · rfl
              · rfl
              · rw [hr]; simp
            refine cont (.start i) (by simp) ?_ ?_
            · simp only [Stream.step, hi, hst, hfree, and_self, if_true]; exact hl
            · simp only [Stream.step, hi, hst, hfree, and_self, if_true]
              have := work_upd (st := s.st) (v := .running) hi (by rw [hst]; decide)
              omega
          · exfalso
            have hall : ∀ i, i < cfg.n → s.st i = .ended := by
              intro i hi
              cases hst : s.st i with
              | waiting => exact absurd ⟨i, hi, hst⟩ hw
              | running => exact absurd ⟨i, hi, hst⟩ hrun
              | ended => rfl
            have hle : (List.range cfg.n).length ≤ (s.log.map (·.1)).length := by
              refine length_le_of_nodup_subset List.nodup_range ?_
              intro i hi
              have hi' := List.mem_range.1 hi
              exact List.mem_map_of_mem (f := (·.1)) ((h.mem i).2 ⟨hi', hall i hi'⟩)
            rw [List.length_range, List.length_map] at hle
            rw [hb] at hlen
            simp at hlen
            omega
    · refine ⟨[], by simp, ?_⟩
      rw [List.append_nil]
      omega

/-- C42, progress: from every state of the iteration some continuation delivers all results; no limit and no order of
completions leads to a state where the consumer waits for ever. -/
theorem C42_progress (cfg : SCfg) (acts : List SAct) (hl : (Stream.run cfg acts).left = false) :
    ∃ more, (∀ a ∈ more, a ≠ .leave) ∧ (Stream.run cfg (acts ++ more)).got.length = cfg.n :=
  stream_progress cfg _ acts hl (Nat.le_refl _)

/-- Non-vacuity: completion order differs from input order; limit 2. -/
example :
    let cfg : SCfg := { n := 3, limit := some 2, val := fun i => i * 10 }
    (Stream.run cfg [.start 2, .start 0, .start 1, .finish 2, .start 1, .next, .finish 1, .finish 0, .next, .next, .next]).got =
      [(2, 20), (1, 10), (0, 0)] := by decide

/-! ### C101: leaving a CompletionStream early -/

/-- The documented claim: leaving the block early cancels the remaining awaitables, so leaving can complete although some awaitable was not run to its end.  It is false in every execution:
whenever the exit has completed, every awaitable has run to its end. -/
theorem C101_leave_waits_violation (cfg : SCfg) (acts : List SAct) (hx : (Stream.run cfg acts).exited cfg = true) :
    ∀ i, i < cfg.n → (i, cfg.val i) ∈ (Stream.run cfg acts).log := by
  intro i hi
  have h := sinv_run cfg acts
  simp only [Stream.exited, Bool.and_eq_true, List.all_eq_true, List.mem_range, beq_iff_eq] at hx
  exact (h.mem i).2 ⟨hi, hx.2 i hi⟩

/-- A concrete early exit: one of two results consumed, block left; the exit is not complete before the second awaitable has run to its end. -/
theorem C101_leave_early_violation :
    let cfg : SCfg := { n := 2, limit := none, val := fun i => i }
    (Stream.run cfg [.start 0, .start 1, .finish 0, .next, .leave]).exited cfg = false ∧
    (Stream.run cfg [.start 0, .start 1, .finish 0, .next, .leave, .finish 1]).exited cfg = true := by decide

/-- C101, what holds: once the exit has completed no awaitable is still running, and nothing more is yielded after the block was left. -/
theorem C101_no_leak_partial (cfg : SCfg) (acts : List SAct) (hx : (Stream.run cfg acts).exited cfg = true) :
    (∀ i, i < cfg.n → (Stream.run cfg acts).st i = .ended) ∧ ∀ a, ((Stream.run cfg acts).step cfg a).got = (Stream.run cfg acts).got := by
  simp only [Stream.exited, Bool.and_eq_true, List.all_eq_true, List.mem_range, beq_iff_eq] at hx
  refine ⟨hx.2, ?_⟩
  intro a
  cases a with
  | start i => simp only [Stream.step]; split <;> rfl
  | finish i => simp only [Stream.step]; split <;> rfl
  | next => simp only [Stream.step, hx.1]; simp
  | leave => rfl

/-! ### C102: race -/

/-- The first awaitable to finish in a schedule. -/
def firstFinisher (n : Nat) (acts : List RaceAct) : Option Nat :=
  (acts.filterMap (fun a => match a with | .finish i => if i < n then some i else none | _ => none)).head?

theorem race_queue (n : Nat) (res : Nat → Outcome) (o : Outcome) (acts : List RaceAct) (s : Race)
    (h : s.result = some o ∨ (s.result = none ∧ s.queue.head? = some o)) :
    (acts.foldl (Race.step n res) s).result = some o ∨
      ((acts.foldl (Race.step n res) s).result = none ∧ (acts.foldl (Race.step n res) s).queue.head? = some o) := by
  induction acts generalizing s with
  | nil => exact h
  | cons a acts ih =>
    apply ih
    cases a with
    | finish i =>
      simp only [Race.step]
      split
      · next hc =>
        rcases h with h | ⟨h1, h2⟩
        · rw [hc.2.2] at h; cases h
        · right
          refine ⟨h1, ?_⟩
          cases hq : s.queue with
          | nil => rw [hq] at h2; cases h2
          | cons x q => rw [hq] at h2; exact h2
      · exact h
    | recv =>
      simp only [Race.step]
      split
      · next hn =>
        rcases h with h | ⟨h1, h2⟩
        · rw [hn] at h; cases h
        · cases hq : s.queue with
          | nil => rw [hq] at h2; cases h2
          | cons x q =>
            rw [hq] at h2
            simp only [List.head?_cons, Option.some.injEq] at h2
            left; simp [h2]
      · exact h

/-- C102: under every schedule the result of `race`, once there is one, is the outcome (value or error) of the awaitable that finished first. -/
theorem C102_first (n : Nat) (res : Nat → Outcome) (acts : List RaceAct) (o : Outcome) (h : race n res acts = some o) :
    ∃ i, firstFinisher n acts = some i ∧ o = res i := by
  have key : ∀ (acts : List RaceAct) (s : Race), s.result = none → s.queue = [] → (∀ i, s.ended i = false) →
      (acts.foldl (Race.step n res) s).result = some o → ∃ i, firstFinisher n acts = some i ∧ o = res i := by
    intro acts
    induction acts with
    | nil => intro s h1 _ _ h2; rw [List.foldl_nil, h1] at h2; cases h2
    | cons a acts ih =>
      intro s h1 h2 h3 h4
      rw [List.foldl_cons] at h4
      cases a with
      | recv =>
        have : s.step n res .recv = s := by simp [Race.step, h1, h2]
        rw [this] at h4
        exact ih s h1 h2 h3 h4
      | finish i =>
        by_cases hi : i < n
        · have hs : s.step n res (.finish i) = { s with ended := upd s.ended i true, queue := [res i] } := by
            simp [Race.step, hi, h3 i, h1, h2]
          rw [hs] at h4
          have := race_queue n res (res i) acts { s with ended := upd s.ended i true, queue := [res i] } (Or.inr ⟨h1, rfl⟩)
          refine ⟨i, by simp [firstFinisher, hi], ?_⟩
          rcases this with h5 | ⟨h5, _⟩
          · rw [h4] at h5; exact Option.some.inj h5
          · rw [h4] at h5; cases h5
        · have hs : s.step n res (.finish i) = s := by simp [Race.step, hi]
          rw [hs] at h4
          obtain ⟨j, h5, h6⟩ := ih s h1 h2 h3 h4
          exact ⟨j, by simpa [firstFinisher, hi] using h5, h6⟩
  exact key acts {} rfl rfl (fun _ => rfl) h

/-- C102: a result appears as soon as the body runs after some awaitable has finished. -/
theorem C102_available (n : Nat) (res : Nat → Outcome) (acts : List RaceAct) (i : Nat) (h : firstFinisher n acts = some i) :
    race n res (acts ++ [.recv]) = some (res i) := by
  have key : ∀ (acts : List RaceAct) (s : Race), s.result = none → s.queue = [] → (∀ i, s.ended i = false) → firstFinisher n acts = some i →
      (acts.foldl (Race.step n res) s).result = some (res i) ∨
      ((acts.foldl (Race.step n res) s).result = none ∧ (acts.foldl (Race.step n res) s).queue.head? = some (res i)) := by
    intro acts
    induction acts with
    | nil => intro s _ _ _ h; cases h
    | cons a acts ih =>
      intro s h1 h2 h3 h4
      rw [List.foldl_cons]
      cases a with
      | recv =>
        have : s.step n res .recv = s := by simp [Race.step, h1, h2]
        rw [this]
        exact ih s h1 h2 h3 h4
      | finish j =>
        by_cases hj : j < n
        · have hs : s.step n res (.finish j) = { s with ended := upd s.ended j true, queue := [res j] } := by
            simp [Race.step, hj, h3 j, h1, h2]
          rw [hs]
          have : j = i := by simpa [firstFinisher, hj] using h4
          subst this
          exact race_queue n res (res j) acts _ (Or.inr ⟨h1, rfl⟩)
        · have hs : s.step n res (.finish j) = s := by simp [Race.step, hj]
          rw [hs]
          exact ih s h1 h2 h3 (by simpa [firstFinisher, hj] using h4)
  unfold race
  rw [List.foldl_append]
  rcases key acts {} rfl rfl (fun _ => rfl) h with h5 | ⟨h5, h6⟩
  · simp [Race.step, h5]
  · cases hq : (acts.foldl (Race.step n res) {}).queue with
    | nil => rw [hq] at h6; cases h6
    | cons x q =>
      rw [hq] at h6
      simp only [List.head?_cons, Option.some.injEq] at h6
      simp [Race.step, h5, hq, h6]

example : race 3 (fun i => .ok (i * 10)) [.recv, .finish 2, .finish 0, .recv, .finish 1] = some (.ok 20) := by decide

end Verif.Patterns
