import Verif.Lemmas.Fanout

/-!
# gather and bounded_map: C39, C40, C100
-/

set_option linter.unusedSectionVars false
set_option linter.unusedSimpArgs false
set_option linter.unusedVariables false

namespace Verif.Fanout

/-- Nobody outside cancelled the call. -/
def Undisturbed (acts : List Act) : Prop := ∀ a ∈ acts, a ≠ .extCancel

theorem calm_run (cfg : Cfg) (hq : ∀ i, i < cfg.n → (cfg.res i).isOk = true ∨ cfg.returnExc = true) (acts : List Act) (hu : Undisturbed acts) :
    Calm cfg (run cfg acts) :=
  foldl_inv' (Q := fun a => a ≠ .extCancel) cfg (fun s a ha h => calm_step cfg hq s a ha h) acts hu ⟨rfl, rfl, rfl, fun i h => by cases h⟩

theorem fail_run (cfg : Cfg) (hr : cfg.returnExc = false) (hq : ∀ i, i < cfg.n → cfg.res i ≠ .cancelled) (acts : List Act) (hu : Undisturbed acts) :
    Fail cfg (run cfg acts) :=
  foldl_inv' (Q := fun a => a ≠ .extCancel) cfg (fun s a ha h => fail_step cfg hr hq s a ha h) acts hu
    ⟨rfl, fun _ => ⟨rfl, fun i _ h => (by cases h)⟩, fun h => (by cases h), fun p hp => (by cases hp), List.nodup_nil⟩

/-- Ordered results of any fan-out: if all awaitables succeed, or exceptions are to be returned, every completed schedule returns exactly each awaitable's outcome at its own index. -/
theorem ordered (cfg : Cfg) (hq : ∀ i, i < cfg.n → (cfg.res i).isOk = true ∨ cfg.returnExc = true) (acts : List Act) (hu : Undisturbed acts)
    {f : Final} (hf : final cfg (run cfg acts) = some f) : f = .returned ((List.range cfg.n).map (fun i => some (cfg.res i))) := by
  have h := calm_run cfg hq acts hu
  have he := final_ended hf
  unfold final at hf
  split at hf
  · rw [if_neg (by simp [h.errs]), if_neg (by simp [h.ext])] at hf
    cases hf
    congr 1
    apply List.map_congr_left
    intro i hi
    exact h.out i (he i (List.mem_range.1 hi))
  · cases hf

/-- Failure of any fan-out without `return_exceptions`: if some awaitable fails, every completed schedule raises a group; its first exception is the own failure of one of the awaitables, all are
exceptions (not cancellations) of different awaitables. -/
theorem failing (cfg : Cfg) (hr : cfg.returnExc = false) (hq : ∀ i, i < cfg.n → cfg.res i ≠ .cancelled)
    (hx : ∃ i, i < cfg.n ∧ (cfg.res i).isOk = false) (acts : List Act) (hu : Undisturbed acts) {f : Final} (hf : final cfg (run cfg acts) = some f) :
    ∃ i rest, f = .raised ((i, cfg.res i) :: rest) ∧ i < cfg.n ∧ (cfg.res i).isOk = false ∧
      (∀ p ∈ rest, p.1 < cfg.n ∧ p.1 ≠ i ∧ p.2.isOk = false ∧ p.2 ≠ .cancelled) := by
  have h := fail_run cfg hr hq acts hu
  have he := final_ended hf
  have hs : (run cfg acts).scope = true := by
    cases hsc : (run cfg acts).scope with
    | true => rfl
    | false =>
      obtain ⟨i, hi, hb⟩ := hx
      have := ((h.calm hsc).2 i hi (he i hi)).2
      rw [hb] at this; cases this
  obtain ⟨i, o, rest, e1, e2, e3, e4⟩ := h.first hs
  have hb := h.bad
  have hn := h.nodup
  rw [e1] at hb hn
  refine ⟨i, rest, ?_, e2, by rw [← e3]; exact e4, ?_⟩
  · unfold final at hf
    split at hf
    · rw [if_pos (by rw [e1]; simp), e1, e3] at hf
      cases hf; rfl
    · cases hf
  · intro p hp
    obtain ⟨b1, b2, b3, _, _⟩ := hb p (by simp [hp])
    refine ⟨b3, ?_, b1, b2⟩
    intro e
    simp only [List.map_cons, List.nodup_cons, List.mem_map] at hn
    exact hn.1 ⟨p, hp, e⟩

/-! ### C39: gather -/

/-- C39, success: all results in argument order, whatever the schedule. -/
theorem C39_gather_results (vals : List Nat) (re : Bool) (acts : List Act) (hu : Undisturbed acts) {f : Final}
    (hf : final (gatherCfg (vals.map .ok) re) (run (gatherCfg (vals.map .ok) re) acts) = some f) :
    f = .returned (vals.map (fun v => some (.ok v))) := by
  rw [ordered _ (by intro i hi; left; simp only [gatherCfg, List.length_map] at hi ⊢; rw [List.getD_eq_getElem?_getD, List.getElem?_map, List.getElem?_eq_getElem hi]; rfl) acts hu hf]
  congr 1
  apply List.ext_getElem?
  intro i
  simp only [gatherCfg, List.length_map, List.getElem?_map]
  by_cases hi : i < vals.length
  · simp [hi, List.getElem?_range]
  · simp [List.getElem?_eq_none (Nat.le_of_not_lt hi), hi]

/-- C39, `return_exceptions=True`: every outcome (result, exception, even a cancellation raised by the awaitable itself) is at its own index. -/
theorem C39_gather_return_exceptions (outs : List Outcome) (acts : List Act) (hu : Undisturbed acts) {f : Final}
    (hf : final (gatherCfg outs true) (run (gatherCfg outs true) acts) = some f) : f = .returned (outs.map some) := by
  rw [ordered _ (fun i hi => Or.inr rfl) acts hu hf]
  congr 1
  apply List.ext_getElem?
  intro i
  simp only [gatherCfg, List.getElem?_map]
  by_cases hi : i < outs.length
  · simp [hi, List.getElem?_range]
  · simp [List.getElem?_eq_none (Nat.le_of_not_lt hi), hi]

/-- C39, a failure is raised: the group raised contains the failure of an awaitable and no cancellations.  (Domain: awaitables that fail with exceptions that are not cancellations; see C100.) -/
theorem C39_gather_raises (outs : List Outcome) (hc : ∀ o ∈ outs, o ≠ .cancelled) (hx : ∃ o ∈ outs, o.isOk = false) (acts : List Act) (hu : Undisturbed acts)
    {f : Final} (hf : final (gatherCfg outs false) (run (gatherCfg outs false) acts) = some f) :
    ∃ i e rest, f = .raised ((i, e) :: rest) ∧ outs[i]? = some e ∧ e.isOk = false ∧ ∀ p ∈ rest, p.1 ≠ i ∧ p.2.isOk = false ∧ p.2 ≠ .cancelled := by
  have hres : ∀ i, i < outs.length → outs[i]? = some ((gatherCfg outs false).res i) := by
    intro i hi
    simp [gatherCfg, List.getElem?_eq_getElem hi]
  obtain ⟨o, ho, hob⟩ := hx
  obtain ⟨j, hj, rfl⟩ := List.mem_iff_getElem.1 ho
  obtain ⟨i, rest, h1, h2, h3, h4⟩ := failing (gatherCfg outs false) rfl
    (by
      intro i hi
      exact hc _ (List.mem_of_getElem? (hres i hi)))
    ⟨j, hj, by have := hres j hj; rw [List.getElem?_eq_getElem hj] at this; rw [← Option.some.inj this]; exact hob⟩ acts hu hf
  exact ⟨i, _, rest, h1, hres i h2, h3, fun p hp => (h4 p hp).2⟩

/-- The call can always complete: from any reachable point the scheduler can finish it. -/
theorem C39_gather_progress (outs : List Outcome) (re : Bool) (acts : List Act) :
    ∃ more : List Act, Undisturbed more ∧ (final (gatherCfg outs re) (run (gatherCfg outs re) (acts ++ more))).isSome = true := by
  obtain ⟨more, h1, h2⟩ := progress (gatherCfg outs re) (by simp [gatherCfg]) _ (run (gatherCfg outs re) acts) (Nat.le_refl _)
  refine ⟨more, h1, ?_⟩
  unfold run at h2 ⊢
  rw [List.foldl_append]; exact h2

/-- Non-vacuity: reversed completion order. -/
example :
    let cfg := gatherCfg [.ok 10, .ok 20, .ok 30] false
    final cfg (run cfg [.start 0, .start 1, .start 2, .finish 2, .finish 1, .finish 0]) = some (.returned [some (.ok 10), some (.ok 20), some (.ok 30)]) := by decide

example :
    let cfg := gatherCfg [.ok 10, .exc 20, .exc 30] false
    final cfg (run cfg [.start 0, .start 1, .start 2, .finish 2, .cancel 1 .cancelled, .finish 0]) = some (.raised [(2, .exc 30)]) := by decide

/-- C39, C40 (cancellation): a call that is cancelled from outside never returns a list; once its tasks have ended it raises the failures of the awaitables, if there
are any, and is cancelled otherwise. -/
theorem C39_cancelled (cfg : Cfg) (acts : List Act) (hx : .extCancel ∈ acts) {f : Final} (hf : final cfg (run cfg acts) = some f) :
    f = .cancelled ∨ ∃ errs, errs ≠ [] ∧ f = .raised errs := by
  have hrec : ∀ s i o, (record cfg s i o).ext = s.ext := by
    intro s i o
    simp only [record]
    split
    · rfl
    · split <;> rfl
  have hstep : ∀ s a, s.ext = true → (step cfg s a).ext = true := by
    intro s a h
    cases a with
    | start i => simp only [step]; split <;> exact h
    | finish i =>
      simp only [step]
      split
      · rw [hrec]; exact h
      · exact h
    | cancel i o =>
      simp only [step]
      split
      · split
        · rw [hrec]; exact h
        · split
          · split
            · rw [hrec]; exact h
            · exact h
          · exact h
      · exact h
    | extCancel => rfl
  have hrun : ∀ (acts : List Act) s, (s.ext = true ∨ .extCancel ∈ acts) → (acts.foldl (step cfg) s).ext = true := by
    intro acts
    induction acts with
    | nil => intro s h; rcases h with h | h; exact h; cases h
    | cons a acts ih =>
      intro s h
      rw [List.foldl_cons]
      apply ih
      rcases h with h | h
      · exact .inl (hstep s a h)
      · rcases List.mem_cons.1 h with h | h
        · subst h; exact .inl rfl
        · exact .inr h
  have he : (run cfg acts).ext = true := hrun acts {} (.inr hx)
  unfold final at hf
  split at hf
  · split at hf
    · next h => cases hf; exact .inr ⟨_, h, rfl⟩
    · cases hf; exact .inl rfl
  · cases hf

example : final (gatherCfg [.ok 1, .ok 2] false) (run (gatherCfg [.ok 1, .ok 2] false) [.start 0, .finish 0, .start 1, .extCancel, .cancel 1 .cancelled]) = some .cancelled := by
  decide

/-! ### C100: an awaitable that ends in cancellation -/

/-- Without `return_exceptions`, an awaitable that ends with a cancellation exception makes `gather` return normally, with the exception object and unfinished `None`s in the list. -/
theorem C100_self_cancelled_violation :
    let cfg := gatherCfg [.ok 10, .cancelled] false
    final cfg (run cfg [.start 1, .finish 1, .cancel 0 .cancelled]) = some (.returned [none, some .cancelled]) := by decide

/-- C100, what holds: if `gather` returns normally although not all entries are values, some awaitable ended with a cancellation of its own; no ordinary failure is ever returned as if it were a result. -/
theorem C100_self_cancelled_partial (outs : List Outcome) (acts : List Act) (hu : Undisturbed acts) {l : List (Option Outcome)}
    (hf : final (gatherCfg outs false) (run (gatherCfg outs false) acts) = some (.returned l))
    (hl : ∃ i : Nat, i < outs.length ∧ ∀ v, l[i]? ≠ some (some (.ok v))) : .cancelled ∈ outs := by
  apply Classical.byContradiction
  intro hn
  have hres : ∀ i, i < outs.length → outs[i]? = some ((gatherCfg outs false).res i) := by
    intro i hi
    simp [gatherCfg, List.getElem?_eq_getElem hi]
  have hc : ∀ i, i < (gatherCfg outs false).n → (gatherCfg outs false).res i ≠ .cancelled := by
    intro i hi e
    have := hres i hi
    rw [e] at this
    exact hn (List.mem_of_getElem? this)
  by_cases hx : ∃ i, i < (gatherCfg outs false).n ∧ ((gatherCfg outs false).res i).isOk = false
  · obtain ⟨i, rest, h1, _⟩ := failing (gatherCfg outs false) rfl hc hx acts hu hf
    cases h1
  · have hall : ∀ i, i < (gatherCfg outs false).n → ((gatherCfg outs false).res i).isOk = true := by
      intro i hi
      cases hb : ((gatherCfg outs false).res i).isOk with
      | true => rfl
      | false => exact absurd ⟨i, hi, hb⟩ hx
    have h := ordered (gatherCfg outs false) (fun i hi => Or.inl (hall i hi)) acts hu hf
    cases h
    obtain ⟨i, hi, hne⟩ := hl
    have hi' : i < (gatherCfg outs false).n := hi
    have hok := hall i hi'
    cases hr : (gatherCfg outs false).res i with
    | ok v =>
      apply hne v
      rw [List.getElem?_map, List.getElem?_range hi', Option.map_some, hr]
    | exc e => rw [hr] at hok; cases hok
    | base e => rw [hr] at hok; cases hok
    | cancelled => rw [hr] at hok; cases hok

/-! ### C40: bounded_map -/

/-- C40, the bound: at every point of every schedule (including cancellations) at most `limit` calls are in progress. -/
theorem C40_bounded (outs : List Outcome) (k : Int) (re : Bool) {cfg : Cfg} (hc : boundedMapCfg outs k re = some cfg) (acts : List Act) :
    (((List.range outs.length).filter (fun i => (run cfg acts).st i == .running)).length : Int) ≤ k := by
  unfold boundedMapCfg at hc
  split at hc
  · cases hc
  · next hk =>
    injection hc with hc
    have hn : cfg.n = outs.length := by rw [← hc]
    have hl : cfg.limit = some k.toNat := by rw [← hc]
    have h0 : (running cfg {}).length ≤ k.toNat := by
      have : (St.waiting == St.running) = false := rfl
      have h2 : running cfg {} = [] := by
        rw [running, List.filter_eq_nil_iff]
        intro a _ h; cases h
      rw [h2]; exact Nat.zero_le _
    have := foldl_inv (P := fun s => (running cfg s).length ≤ k.toNat) cfg (fun s a h => step_bound cfg k.toNat hl s a h) acts h0
    simp only [running, hn] at this
    unfold run
    omega

/-- C40, rejection of a limit below one, and acceptance of every other. -/
theorem C40_limit (outs : List Outcome) (k : Int) (re : Bool) : boundedMapCfg outs k re = none ↔ k < 1 := by
  unfold boundedMapCfg
  split
  · next h => exact ⟨fun _ => by omega, fun _ => rfl⟩
  · next h => exact ⟨fun h' => (by cases h'), fun h' => (by omega)⟩

/-- C40, results: one per input, in input order. -/
theorem C40_results (outs : List Outcome) (k : Int) (re : Bool) (hq : (∀ o ∈ outs, o.isOk = true) ∨ re = true) {cfg : Cfg} (hc : boundedMapCfg outs k re = some cfg)
    (acts : List Act) (hu : Undisturbed acts) {f : Final} (hf : final cfg (run cfg acts) = some f) : f = .returned (outs.map some) := by
  unfold boundedMapCfg at hc
  split at hc
  · cases hc
  · cases hc
    rw [ordered _ (by
      intro i hi
      rcases hq with hq | hq
      · left
        simp only at hi ⊢
        rw [List.getD_eq_getElem?_getD, List.getElem?_eq_getElem hi]
        exact hq _ (List.getElem_mem hi)
      · right; exact hq) acts hu hf]
    congr 1
    apply List.ext_getElem?
    intro i
    simp only [List.getElem?_map]
    by_cases hi : i < outs.length
    · simp [hi, List.getElem?_range]
    · simp [List.getElem?_eq_none (Nat.le_of_not_lt hi), hi]

/-- C40, failures are raised (as for `gather`). -/
theorem C40_raises (outs : List Outcome) (k : Int) (hcn : ∀ o ∈ outs, o ≠ .cancelled) (hx : ∃ o ∈ outs, o.isOk = false) {cfg : Cfg}
    (hc : boundedMapCfg outs k false = some cfg) (acts : List Act) (hu : Undisturbed acts) {f : Final} (hf : final cfg (run cfg acts) = some f) :
    ∃ i e rest, f = .raised ((i, e) :: rest) ∧ outs[i]? = some e ∧ e.isOk = false := by
  unfold boundedMapCfg at hc
  split at hc
  · cases hc
  · injection hc with hc
    have hn : cfg.n = outs.length := by rw [← hc]
    have hres : ∀ i, i < outs.length → outs[i]? = some (cfg.res i) := by
      intro i hi
      rw [← hc]
      simp [List.getElem?_eq_getElem hi]
    obtain ⟨o, ho, hob⟩ := hx
    obtain ⟨j, hj, rfl⟩ := List.mem_iff_getElem.1 ho
    obtain ⟨i, rest, h1, h2, h3, h4⟩ := failing cfg (by rw [← hc])
      (by
        intro i hi
        exact hcn _ (List.mem_of_getElem? (hres i (hn ▸ hi))))
      ⟨j, hn ▸ hj, by have := hres j hj; rw [List.getElem?_eq_getElem hj] at this; rw [← Option.some.inj this]; exact hob⟩ acts hu hf
    exact ⟨i, _, rest, h1, hres i (hn ▸ h2), h3⟩

/-- C40, progress: no schedule gets stuck waiting for slots. -/
theorem C40_progress (outs : List Outcome) (k : Int) (re : Bool) {cfg : Cfg} (hc : boundedMapCfg outs k re = some cfg) (acts : List Act) :
    ∃ more : List Act, Undisturbed more ∧ (final cfg (run cfg (acts ++ more))).isSome = true := by
  have hl : cfg.limit ≠ some 0 := by
    unfold boundedMapCfg at hc
    split at hc
    · cases hc
    · cases hc
      simp only [ne_eq, Option.some.injEq]; omega
  obtain ⟨more, h1, h2⟩ := progress cfg hl _ (run cfg acts) (Nat.le_refl _)
  refine ⟨more, h1, ?_⟩
  unfold run at h2 ⊢
  rw [List.foldl_append]; exact h2

/-- Non-vacuity: limit 2, three items; the third starts only after the first ended. -/
example :
    (boundedMapCfg [.ok 1, .ok 2, .ok 3] 2 false).map (fun cfg =>
      final cfg (run cfg [.start 2, .start 1, .start 0, .finish 1, .start 0, .finish 0, .finish 2])) =
      some (some (.returned [some (.ok 1), some (.ok 2), some (.ok 3)])) := by decide

end Verif.Fanout
