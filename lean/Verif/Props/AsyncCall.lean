import Verif.Model.AsyncCall
import Verif.Props.Fanout

/-!
# alcall and bcall: C43, C44
-/

set_option linter.unusedSectionVars false
set_option linter.unusedSimpArgs false
set_option linter.unusedVariables false

namespace Verif.AsyncCall

open Verif.Fanout

/-! ### C43 -/

/-- What one item's task must do: `k` attempts failed with ordinary exceptions, then a last attempt `k`; retries are only used after ordinary failures, at most `retry_attempts` of them. -/
inductive TaskSpec (script : Nat → Outcome) (default : Option Nat) (retries : Nat) : Nat → Outcome → Prop
  | success {k v} : k ≤ retries → script k = .ok v → TaskSpec script default retries (k + 1) (.ok v)
  | cancelled {k} : k ≤ retries → script k = .cancelled → TaskSpec script default retries (k + 1) .cancelled
  | base {k e} : k ≤ retries → script k = .base e → TaskSpec script default retries (k + 1) (.base e)
  | default {e d} : script retries = .exc e → default = some d → TaskSpec script default retries (retries + 1) (.ok d)
  | raised {e} : script retries = .exc e → default = none → TaskSpec script default retries (retries + 1) (.exc e)

theorem execTask_spec (script : Nat → Outcome) (default : Option Nat) (retries left k : Nat) (h : k + left = retries) :
    TaskSpec script default retries (execTask script default left k).1 (execTask script default left k).2 ∧
      ∀ i, k ≤ i → i + 1 < (execTask script default left k).1 → ∃ e, script i = .exc e := by
  induction left generalizing k with
  | zero =>
    have hk : k = retries := by omega
    unfold execTask
    cases hs : script k with
    | ok v => exact ⟨.success (by omega) hs, fun i h1 h2 => by simp only at h2; omega⟩
    | cancelled => exact ⟨.cancelled (by omega) hs, fun i h1 h2 => by simp only at h2; omega⟩
    | base e => exact ⟨.base (by omega) hs, fun i h1 h2 => by simp only at h2; omega⟩
    | exc e =>
      subst hk
      cases hd : default with
      | none => exact ⟨.raised hs rfl, fun i h1 h2 => by simp only at h2; omega⟩
      | some d => exact ⟨.default hs rfl, fun i h1 h2 => by simp only at h2; omega⟩
  | succ left ih =>
    unfold execTask
    cases hs : script k with
    | ok v => exact ⟨.success (by omega) hs, fun i h1 h2 => by simp only at h2; omega⟩
    | cancelled => exact ⟨.cancelled (by omega) hs, fun i h1 h2 => by simp only at h2; omega⟩
    | base e => exact ⟨.base (by omega) hs, fun i h1 h2 => by simp only at h2; omega⟩
    | exc e =>
      obtain ⟨h1, h2⟩ := ih (k + 1) (by omega)
      refine ⟨h1, ?_⟩
      intro i hi1 hi2
      by_cases e' : i = k
      · subst e'; exact ⟨e, hs⟩
      · exact h2 i (by omega) hi2

/-- C43, one item: the attempts made and the outcome; all attempts before the last failed with ordinary exceptions. -/
theorem C43_item (p : AParams) (script : Nat → Nat → Outcome) (i : Nat) :
    TaskSpec (script i) p.default p.retryAttempts.toNat (taskAttempts p script i) (taskOutcome p script i) ∧
      ∀ k, k + 1 < taskAttempts p script i → ∃ e, script i k = .exc e := by
  obtain ⟨h1, h2⟩ := execTask_spec (script i) p.default p.retryAttempts.toNat p.retryAttempts.toNat 0 (by omega)
  exact ⟨h1, fun k hk => h2 k (Nat.zero_le _) hk⟩

/-- C43: at most `1 + retry_attempts` attempts per item, at least one. -/
theorem C43_attempts (p : AParams) (script : Nat → Nat → Outcome) (i : Nat) :
    1 ≤ taskAttempts p script i ∧ taskAttempts p script i ≤ 1 + p.retryAttempts.toNat := by
  have h := (C43_item p script i).1
  generalize taskAttempts p script i = m at h
  generalize taskOutcome p script i = o at h
  cases h <;> omega

/-- C43: the first successful attempt within the allowed ones decides the result. -/
theorem C43_first_success (p : AParams) (script : Nat → Nat → Outcome) (i k v : Nat) (hk : k ≤ p.retryAttempts.toNat) (hs : script i k = .ok v)
    (hf : ∀ j, j < k → ∃ e, script i j = .exc e) : taskOutcome p script i = .ok v ∧ taskAttempts p script i = k + 1 := by
  have hge : k + 1 ≤ taskAttempts p script i := by
    obtain ⟨h1, h2⟩ := C43_item p script i
    generalize taskAttempts p script i = m at h1 h2
    generalize taskOutcome p script i = o at h1
    cases h1 with
    | success hk' hs' =>
      rename_i k' _
      rcases Nat.lt_or_ge k' k with hlt | hge
      · obtain ⟨e, he⟩ := hf k' hlt; rw [hs'] at he; cases he
      · omega
    | cancelled hk' hs' =>
      rename_i k'
      rcases Nat.lt_or_ge k' k with hlt | hge
      · obtain ⟨e, he⟩ := hf k' hlt; rw [hs'] at he; cases he
      · omega
    | base hk' hs' =>
      rename_i k' _
      rcases Nat.lt_or_ge k' k with hlt | hge
      · obtain ⟨e, he⟩ := hf k' hlt; rw [hs'] at he; cases he
      · omega
    | default => omega
    | raised => omega
  have hle : taskAttempts p script i ≤ k + 1 := by
    rcases Nat.lt_or_ge (k + 1) (taskAttempts p script i) with hlt | h
    · obtain ⟨e, he⟩ := (C43_item p script i).2 k hlt
      rw [hs] at he; cases he
    · exact h
  have heq : taskAttempts p script i = k + 1 := by omega
  refine ⟨?_, heq⟩
  have h1 := (C43_item p script i).1
  rw [heq] at h1
  generalize taskOutcome p script i = o at h1
  cases h1 with
  | success _ hs' => rw [hs] at hs'; cases hs'; rfl
  | cancelled _ hs' => rw [hs] at hs'; cases hs'
  | base _ hs' => rw [hs] at hs'; cases hs'
  | default hs' => rw [hs] at hs'; cases hs'
  | raised hs' => rw [hs] at hs'; cases hs'

/-- C43: when all allowed attempts fail the default is used if there is one, else the last error is the outcome. -/
theorem C43_exhausted (p : AParams) (script : Nat → Nat → Outcome) (i : Nat) (hf : ∀ k, k ≤ p.retryAttempts.toNat → ∃ e, script i k = .exc e) :
    taskAttempts p script i = 1 + p.retryAttempts.toNat ∧
      match p.default with
      | some d => taskOutcome p script i = .ok d
      | none => taskOutcome p script i = script i p.retryAttempts.toNat := by
  have h1 := (C43_item p script i).1
  generalize taskAttempts p script i = m at h1
  generalize taskOutcome p script i = o at h1
  cases h1 with
  | success hk hs => obtain ⟨e, he⟩ := hf _ hk; rw [hs] at he; cases he
  | cancelled hk hs => obtain ⟨e, he⟩ := hf _ hk; rw [hs] at he; cases he
  | base hk hs => obtain ⟨e, he⟩ := hf _ hk; rw [hs] at he; cases he
  | default hs hd => refine ⟨by omega, ?_⟩; rw [hd]
  | raised hs hd => refine ⟨by omega, ?_⟩; rw [hd]; exact hs.symm

/-- C43, results: if every item ends with a value, or exceptions are to be returned, the result list has one entry per input in input order, whatever the schedule and concurrency limit. -/
theorem C43_results (p : AParams) (n : Nat) (script : Nat → Nat → Outcome)
    (hq : (∀ i, i < n → (taskOutcome p script i).isOk = true) ∨ p.returnExc = true) (acts : List Act) (hu : Undisturbed acts) {f : Final}
    (hf : final (alcallCfg p n script) (run (alcallCfg p n script) acts) = some f) :
    f = .returned ((List.range n).map (fun i => some (taskOutcome p script i))) := by
  apply ordered (alcallCfg p n script) _ acts hu hf
  intro i hi
  rcases hq with hq | hq
  · exact Or.inl (hq i hi)
  · exact Or.inr hq

/-- C43, errors: without `return_exceptions`, if some item's attempts are exhausted without default (and nothing ends in cancellation), the call raises a group whose first exception is such an item's error. -/
theorem C43_raises (p : AParams) (hr : p.returnExc = false) (n : Nat) (script : Nat → Nat → Outcome) (hc : ∀ i, i < n → taskOutcome p script i ≠ .cancelled)
    (hx : ∃ i, i < n ∧ (taskOutcome p script i).isOk = false) (acts : List Act) (hu : Undisturbed acts) {f : Final}
    (hf : final (alcallCfg p n script) (run (alcallCfg p n script) acts) = some f) :
    ∃ i rest, f = .raised ((i, taskOutcome p script i) :: rest) ∧ i < n ∧ (taskOutcome p script i).isOk = false := by
  obtain ⟨i, rest, h1, h2, h3, _⟩ := failing (alcallCfg p n script) hr hc hx acts hu hf
  exact ⟨i, rest, h1, h2, h3⟩

/-- C43, concurrency: with `max_concurrent = k > 0` at most `k` items are in progress at any time. -/
theorem C43_bounded (p : AParams) (k : Nat) (hk : p.maxConcurrent = some (k + 1)) (n : Nat) (script : Nat → Nat → Outcome) (acts : List Act) :
    ((List.range n).filter (fun i => (run (alcallCfg p n script) acts).st i == .running)).length ≤ k + 1 := by
  have hl : (alcallCfg p n script).limit = some (k + 1) := by simp [alcallCfg, hk, effLimit]
  have h0 : (running (alcallCfg p n script) {}).length ≤ k + 1 := by
    have h2 : running (alcallCfg p n script) {} = [] := by
      rw [running, List.filter_eq_nil_iff]
      intro a _ h; cases h
    rw [h2]; exact Nat.zero_le _
  exact foldl_inv (P := fun s => (running (alcallCfg p n script) s).length ≤ k + 1) _ (fun s a h => step_bound _ (k + 1) hl s a h) acts h0

/-- C43, progress. -/
theorem C43_progress (p : AParams) (n : Nat) (script : Nat → Nat → Outcome) (acts : List Act) :
    ∃ more : List Act, Undisturbed more ∧ (final (alcallCfg p n script) (run (alcallCfg p n script) (acts ++ more))).isSome = true := by
  have hl : (alcallCfg p n script).limit ≠ some 0 := by
    unfold alcallCfg effLimit
    split
    · simp
    · next h => exact fun e => h e
  obtain ⟨more, h1, h2⟩ := progress (alcallCfg p n script) hl _ (run (alcallCfg p n script) acts) (Nat.le_refl _)
  refine ⟨more, h1, ?_⟩
  unfold run at h2 ⊢
  rw [List.foldl_append]; exact h2

/-- Non-vacuity: item 0 succeeds at the second attempt, item 1 never and takes the default. -/
example :
    let p : AParams := { retryAttempts := 2, default := some 99, maxConcurrent := some 1 }
    let script : Nat → Nat → Outcome := fun i k => if i = 0 ∧ k = 1 then .ok 5 else .exc k
    final (alcallCfg p 2 script) (run (alcallCfg p 2 script) [.start 1, .start 0, .finish 1, .start 0, .finish 0]) =
      some (.returned [some (.ok 5), some (.ok 99)]) ∧ taskAttempts p script 0 = 2 ∧ taskAttempts p script 1 = 3 := by decide

/-! ### C44 -/

theorem batchesFrom_flatten {α : Type} (l : List α) (size : Nat) (hs : 0 < size) (fuel i : Nat) (hf : l.length ≤ i + fuel) :
    (batchesFrom l size fuel i).flatten = l.drop i := by
  induction fuel generalizing i with
  | zero => rw [batchesFrom, List.drop_eq_nil_of_le (by omega)]; rfl
  | succ fuel ih =>
    rw [batchesFrom]
    split
    · rw [List.flatten_cons, ih (i + size) (by omega)]
      rw [← List.drop_drop, List.take_append_drop]
    · rw [List.drop_eq_nil_of_le (by omega)]; rfl

/-- C44: the batches concatenate to the input: nothing lost, repeated or reordered. -/
theorem C44_concat {α : Type} (l : List α) (size : Nat) (hs : 0 < size) : (batches l size).flatten = l := by
  rw [batches, batchesFrom_flatten l size hs _ 0 (by omega)]; rfl

theorem batchesFrom_get {α : Type} (l : List α) (size : Nat) (hs : 0 < size) (fuel i : Nat) (hf : l.length ≤ i + fuel) (k : Nat) :
    (batchesFrom l size fuel i)[k]? = if i + k * size < l.length then some ((l.drop (i + k * size)).take size) else none := by
  induction fuel generalizing i k with
  | zero => rw [batchesFrom, if_neg (by omega)]; rfl
  | succ fuel ih =>
    rw [batchesFrom]
    by_cases h : i < l.length
    · rw [if_pos h]
      cases k with
      | zero => simp [h]
      | succ k =>
        rw [List.getElem?_cons_succ, ih (i + size) (by omega) k]
        have : i + size + k * size = i + (k + 1) * size := by rw [Nat.succ_mul]; omega
        rw [this]
    · rw [if_neg h]
      have : ¬ i + k * size < l.length := by omega
      rw [if_neg this]; rfl

/-- C44: the `k`-th batch starts at position `k * batch_size` and has `batch_size` items, or what is left (never none). -/
theorem C44_batch {α : Type} (l : List α) (size : Nat) (hs : 0 < size) (k : Nat) :
    (batches l size)[k]? = if k * size < l.length then some ((l.drop (k * size)).take size) else none := by
  have := batchesFrom_get l size hs l.length 0 (by omega) k
  simpa [batches] using this

/-- C44: all batches but the last are full; the last is not empty. -/
theorem C44_sizes {α : Type} (l : List α) (size : Nat) (hs : 0 < size) (k : Nat) (b : List α) (h : (batches l size)[k]? = some b) :
    1 ≤ b.length ∧ b.length ≤ size ∧ ((batches l size)[k + 1]? ≠ none → b.length = size) := by
  rw [C44_batch l size hs k] at h
  split at h
  · next hk =>
    cases h
    refine ⟨by simp only [List.length_take, List.length_drop]; omega, by simp only [List.length_take]; omega, ?_⟩
    intro hn
    rw [C44_batch l size hs (k + 1)] at hn
    split at hn
    · next hk1 =>
      rw [Nat.succ_mul] at hk1
      simp only [List.length_take, List.length_drop]; omega
    · exact absurd rfl hn
  · cases h

example : batches [1, 2, 3, 4, 5] 2 = [[1, 2], [3, 4], [5]] := by decide

end Verif.AsyncCall
