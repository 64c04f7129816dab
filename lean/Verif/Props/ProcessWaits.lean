import Verif.Props.Executor

/-!
# C212: `process()` waits for the events it has started
-/

set_option linter.unusedSectionVars false
set_option linter.unusedSimpArgs false
set_option linter.unusedVariables false

namespace Verif.Executor

open Event (Status)

variable {γ : Type} [DecidableEq γ]

/-- No call becomes finished, except possibly call `i`. -/
def Keeps (i : Option Nat) (p q : Processor.Sys) : Prop :=
  p.calls.length ≤ q.calls.length ∧
  ∀ j cl, q.calls[j]? = some cl → cl.pc = .done → some j ≠ i → ∃ cl', p.calls[j]? = some cl' ∧ cl'.pc = .done

theorem Keeps.of_calls {i : Option Nat} {p q : Processor.Sys} (h : q.calls = p.calls) : Keeps i p q :=
  ⟨by rw [h]; exact Nat.le_refl _, fun j cl h1 h2 _ => ⟨cl, by rw [← h]; exact h1, h2⟩⟩

theorem Keeps.of_set {i : Nat} {p q : Processor.Sys} {cl : Processor.Call} (h : q.calls = p.calls.set i cl) : Keeps (some i) p q := by
  refine ⟨by rw [h, List.length_set]; exact Nat.le_refl _, fun j cl' h1 h2 h3 => ⟨cl', ?_, h2⟩⟩
  rw [h, List.getElem?_set_ne (fun e => h3 (by rw [e]))] at h1
  exact h1

theorem Keeps.trans {i : Option Nat} {p q r : Processor.Sys} (h1 : Keeps i p q) (h2 : Keeps i q r) : Keeps i p r := by
  refine ⟨Nat.le_trans h1.1 h2.1, fun j cl a b c => ?_⟩
  obtain ⟨cl', a', b'⟩ := h2.2 j cl a b c
  exact h1.2 j cl' a' b' c

theorem advance_calls (c : Processor.Cfg) (s : Processor.Sys) (i : Nat) (cl : Processor.Call) (f : Bool) (perm : Processor.Perm) :
    (Processor.advance c s i cl f perm).calls = s.calls ∨
      ∃ cl', (Processor.advance c s i cl f perm).calls = s.calls.set i cl' ∧ (cl'.pc = .done → cl.pc = .draining) := by
  unfold Processor.advance
  split
  · split
    · exact .inr ⟨_, rfl, fun h => by cases h⟩
    · exact .inr ⟨_, rfl, fun h => by cases h⟩
  · split
    · exact .inl rfl
    · split
      · exact .inr ⟨_, rfl, fun h => by cases h⟩
      · exact .inr ⟨_, rfl, fun h => by cases h⟩
  · split
    · exact .inr ⟨_, rfl, fun h => by cases h⟩
    · simp only [Processor.deny]
      split
      · exact .inr ⟨_, rfl, fun h => by cases h⟩
      · exact .inr ⟨_, rfl, fun h => by cases h⟩
    · exact .inr ⟨_, rfl, fun h => by cases h⟩
  · exact .inr ⟨_, rfl, fun h => by cases h⟩
  · exact .inr ⟨_, rfl, fun h => by cases h⟩
  · exact .inr ⟨_, rfl, fun h => by cases h⟩
  · next h =>
    split
    · exact .inr ⟨_, rfl, fun _ => h⟩
    · exact .inr ⟨_, rfl, fun _ => h⟩
  · exact .inl rfl
  · exact .inl rfl

/-- Every action other than a step of a call. -/
theorem keeps_step (c : Processor.Cfg) (p : Processor.Sys) (a : Processor.Act) (h : ∀ i f perm, a ≠ .go i f perm) : Keeps none p (Processor.step c p a) := by
  cases a with
  | enqueue id prio created =>
    refine .of_calls ?_
    simp only [Processor.step, Processor.enqueue]
    split
    · rfl
    · split
      · rfl
      · rfl
      · split <;> rfl
  | enqPut k =>
    refine .of_calls ?_
    simp only [Processor.step, Processor.enqPut]
    split <;> rfl
  | process =>
    refine ⟨by simp [Processor.step], ?_⟩
    intro j cl h1 h2 _
    simp only [Processor.step] at h1
    by_cases hj : j < p.calls.length
    · rw [List.getElem?_append_left hj] at h1; exact ⟨cl, h1, h2⟩
    · rw [List.getElem?_append_right (by omega)] at h1
      rcases hx : j - p.calls.length with _ | n
      · rw [hx] at h1; simp only [List.getElem?_cons_zero, Option.some.injEq] at h1; subst h1; cases h2
      · rw [hx] at h1; simp at h1
  | go i f perm => exact absurd rfl (h i f perm)
  | cancel i =>
    simp only [Processor.step]
    split
    · exact .of_calls rfl
    · next cl hc =>
      split
      · exact .of_calls rfl
      · refine ⟨by simp [Processor.setCall], ?_⟩
        intro j cl' h1 h2 _
        simp only [Processor.setCall] at h1
        by_cases e : i = j
        · subst e
          rw [List.getElem?_set_self (by rcases Nat.lt_or_ge i p.calls.length with h | h; exact h; rw [List.getElem?_eq_none h] at hc; cases hc)] at h1
          cases h1; cases h2
        · rw [List.getElem?_set_ne e] at h1; exact ⟨cl', h1, h2⟩
  | stop => exact .of_calls rfl
  | forget id => exact .of_calls rfl

theorem keeps_forgetAll (c : Processor.Cfg) : ∀ (ids : List Nat) (p : Processor.Sys), Keeps none p (forgetAll c p ids)
  | [], p => .of_calls rfl
  | id :: ids, p => (keeps_step c p (.forget id) (fun _ _ _ h => by cases h)).trans (keeps_forgetAll c ids _)

/-- Executing events belong to calls that have not returned. -/
structure Held (s : Sys γ) : Prop where
  none_ : s.proc = none → s.runs = []
  known : ∀ p, s.proc = some p → ∀ r ∈ s.runs, r.1 < p.calls.length
  open_ : ∀ p, s.proc = some p → ∀ r ∈ s.runs, ∀ cl, p.calls[r.1]? = some cl → cl.pc ≠ .done

theorem Held.keeps {s s' : Sys γ} (h : Held s) {p q : Processor.Sys} (hp : s.proc = some p) (hq : s'.proc = some q) (hr : ∀ r ∈ s'.runs, r ∈ s.runs)
    {i : Option Nat} (hk : Keeps i p q) (hi : ∀ r ∈ s.runs, some r.1 ≠ i) : Held s' where
  none_ := fun e => by rw [hq] at e; cases e
  known := fun q' e r hr' => by rw [hq] at e; cases e; exact Nat.lt_of_lt_of_le (h.known p hp r (hr r hr')) hk.1
  open_ := fun q' e r hr' cl hcl hd => by
    rw [hq] at e; cases e
    obtain ⟨cl', h1, h2⟩ := hk.2 r.1 cl hcl hd (hi r (hr r hr'))
    exact h.open_ p hp r (hr r hr') cl' h1 h2

theorem Held.other {s s' : Sys γ} (h : Held s) (hp : s'.proc = s.proc) (hr : ∀ r ∈ s'.runs, r ∈ s.runs) : Held s' := by
  cases he : s.proc with
  | none =>
    refine ⟨fun _ => ?_, fun q e => (by rw [hp, he] at e; cases e), fun q e => (by rw [hp, he] at e; cases e)⟩
    cases hx : s'.runs with
    | nil => rfl
    | cons a l => have := hr a (by rw [hx]; exact List.mem_cons_self); rw [h.none_ he] at this; cases this
  | some p => exact h.keeps he (hp.trans he) hr (Keeps.of_calls (i := none) rfl) (fun _ _ e => by cases e)

theorem Held.pstep {s s' : Sys γ} (h : Held s) (c : Processor.Cfg) (a : Processor.Act) (ha : ∀ i f perm, a ≠ .go i f perm)
    (hp : s'.proc = s.proc.map (fun p => Processor.step c p a)) (hr : ∀ r ∈ s'.runs, r ∈ s.runs) : Held s' := by
  cases he : s.proc with
  | none => exact h.other (by rw [hp, he]; rfl) hr
  | some p => exact h.keeps he (by rw [hp, he]; rfl) hr (keeps_step c p a ha) (fun _ _ e => by cases e)

theorem Held.goOn {s : Sys γ} (h : Held s) (c : Processor.Cfg) {p : Processor.Sys} (hp : s.proc = some p) {i : Nat} {cl : Processor.Call}
    (hc : p.calls[i]? = some cl) (hw : waitsFor s i cl = false) (perm : Processor.Perm) : Held (goOn c s p i cl perm) := by
  have hlt : i < p.calls.length := by
    rcases Nat.lt_or_ge i p.calls.length with h | h
    · exact h
    · rw [List.getElem?_eq_none h] at hc; cases hc
  have hfree : cl.pc = .draining → ∀ r ∈ s.runs, r.1 ≠ i := by
    intro hd r hr e
    simp only [waitsFor, hd, beq_self_eq_true, Bool.true_and] at hw
    rw [List.any_eq_false] at hw
    exact hw r hr (by simp [e])
  have hgo : ∀ f, (Processor.step c p (.go i f perm)).calls.length = p.calls.length ∧
      ∀ r : Nat × Nat, r ∈ s.runs ∨ (r.1 = i ∧ ∃ e, cl.pc = .granted e) → ∀ cl', (Processor.step c p (.go i f perm)).calls[r.1]? = some cl' → cl'.pc ≠ .done := by
    intro f
    simp only [Processor.step, hc]
    rcases advance_calls c p i cl f perm with e | ⟨cl₁, e, hd⟩
    · rw [e]
      refine ⟨rfl, ?_⟩
      rintro r (hr | ⟨hr, g, hg⟩) cl' hcl' hdone
      · exact h.open_ p hp r hr cl' hcl' hdone
      · rw [hr, hc] at hcl'; cases hcl'; rw [hg] at hdone; cases hdone
    · rw [e]
      refine ⟨by simp, ?_⟩
      rintro r (hr | ⟨hr, g, hg⟩) cl' hcl' hdone
      · by_cases hri : r.1 = i
        · rw [hri, List.getElem?_set_self hlt] at hcl'; cases hcl'
          exact hfree (hd hdone) r hr hri
        · rw [List.getElem?_set_ne (fun e => hri e.symm)] at hcl'
          exact h.open_ p hp r hr cl' hcl' hdone
      · rw [hr, List.getElem?_set_self hlt] at hcl'; cases hcl'
        have := hd hdone
        rw [hg] at this; cases this
  unfold Executor.goOn
  cases hf : fileOf cl.pc with
  | none =>
    obtain ⟨h1, h2⟩ := hgo (found s.flow p)
    refine ⟨fun e => (by cases e), ?_, ?_⟩
    · intro q e r hr; cases e; rw [h1]; exact h.known p hp r hr
    · intro q e r hr cl' hcl'; cases e; exact h2 r (.inl hr) cl' hcl'
  | some u =>
    simp only []
    split
    · exact h.keeps (s' := { s with flow := _, proc := some (Processor.step c p (.cancel i)) }) hp rfl (fun r hr => hr)
        (keeps_step c p (.cancel i) (fun _ _ _ h => by cases h)) (fun _ _ e => by cases e)
    · obtain ⟨h1, h2⟩ := hgo true
      have hmem : ∀ r ∈ s.runs ++ ((startOf cl.pc).map (fun x => (i, x))).toList, r ∈ s.runs ∨ (r.1 = i ∧ ∃ e, cl.pc = .granted e) := by
        intro r hr
        rcases List.mem_append.1 hr with hr | hr
        · exact .inl hr
        · right
          cases hx : cl.pc with
          | granted e => rw [hx] at hr; simp only [startOf, Option.map_some, Option.toList_some, List.mem_singleton] at hr; exact ⟨by rw [hr], e, rfl⟩
          | _ => rw [hx] at hr; simp [startOf] at hr
      refine ⟨fun e => (by cases e), ?_, ?_⟩
      · intro q e r hr
        cases e
        rw [h1]
        rcases hmem r hr with hr | ⟨hr, _⟩
        · exact h.known p hp r hr
        · rw [hr]; exact hlt
      · intro q e r hr cl' hcl'; cases e; exact h2 r (hmem r hr) cl' hcl'

theorem Held.step {s : Sys γ} (h : Held s) (sub : γ → γ → Bool) (c : Processor.Cfg) (a : Act γ) : Held (step sub c s a) := by
  have ng : ∀ {a : Processor.Act}, (∀ i f perm, a ≠ .go i f perm) → ∀ {s' : Sys γ}, s'.proc = s.proc.map (fun p => Processor.step c p a) → s'.runs = s.runs → Held s' :=
    fun ha _ hp hr => h.pstep c _ ha hp (fun r m => by rw [← hr]; exact m)
  cases a with
  | append ev prio =>
    simp only [Executor.step]
    split
    · exact h.other rfl (fun r m => m)
    · exact ng (a := .enqueue _ _ _) (fun _ _ _ e => by cases e) rfl rfl
  | start =>
    simp only [Executor.step]
    split
    · exact h
    · next hp =>
      split
      · refine ⟨fun e => (by cases e), ?_, ?_⟩ <;> intro q e r hr <;> (simp only [h.none_ hp] at hr; cases hr)
      · refine ⟨fun e => (by cases e), ?_, ?_⟩ <;> intro q e r hr <;> (simp only [h.none_ hp] at hr; cases hr)
  | fill =>
    simp only [Executor.step]
    split
    · next p id ids hp hb => exact ng (a := .enqueue _ _ _) (fun _ _ _ e => by cases e) (by rw [hp]; rfl) rfl
    · exact h
  | enqPut k => exact ng (a := .enqPut k) (fun _ _ _ e => by cases e) rfl rfl
  | forward => exact ng (a := .process) (fun _ _ _ e => by cases e) rfl rfl
  | go i perm =>
    simp only [Executor.step]
    split
    · exact h
    · next p hp =>
      split
      · exact h
      · next cl hc =>
        by_cases hw : waitsFor s i cl = true
        · rw [if_pos hw]; exact h
        · rw [if_neg hw]; exact h.goOn c hp hc (Bool.eq_false_iff.2 hw) perm
  | cancel i => exact ng (a := .cancel i) (fun _ _ _ e => by cases e) rfl rfl
  | finish k st =>
    simp only [Executor.step]
    split
    · exact h
    · exact h.other rfl (fun r m => List.mem_of_mem_eraseIdx m)
  | vanish k => exact h.other rfl (fun r m => List.mem_of_mem_eraseIdx m)
  | stop => exact ng (a := .stop) (fun _ _ _ e => by cases e) rfl rfl
  | cleanup sts =>
    cases hp : s.proc with
    | none => exact h.other (by simp only [Executor.step, hp, Option.map_none]) (fun r m => m)
    | some p =>
      exact h.keeps (s' := Executor.step sub c s (.cleanup sts)) hp (by simp only [Executor.step, hp, Option.map_some]) (fun r m => m)
        (keeps_forgetAll c (cleanup s.flow sts).2.1 p) (fun _ _ e => by cases e)

theorem Held.run (sub : γ → γ → Bool) (c : Processor.Cfg) : ∀ (as : List (Act γ)) {s : Sys γ}, Held s → Held (run sub c s as)
  | [], _, h => h
  | a :: as, _, h => Held.run sub c as (h.step sub c a)

/-- C212: in every execution, a `process()` call that has returned has none of its events still executing. -/
theorem C212_waits (pid : Status → Nat) (cls : List γ) (strict : Bool) (sub : γ → γ → Bool) (c : Processor.Cfg) (as : List (Act γ)) (p : Processor.Sys) (i : Nat) (cl : Processor.Call)
    (hp : (run sub c (init pid cls strict) as).proc = some p) (hc : p.calls[i]? = some cl) (hd : cl.pc = .done) :
    ∀ id, (i, id) ∉ (run sub c (init pid cls strict) as).runs := by
  intro id hm
  have h : Held (run sub c (init pid cls strict) as) :=
    Held.run sub c as ⟨fun _ => rfl, fun q e => (by cases e), fun q e => (by cases e)⟩
  exact h.open_ p hp (i, id) hm cl hc hd

/-- Non-vacuity: the event executes, the call waits (a step does nothing), the event ends, the call returns. -/
example :
    let s := run (fun _ _ => true) cfg0 (init pid0 [()] false)
      [.append (ev0 1 10) none, .start, .fill, .enqPut 0, .forward, .go 0 .grant, .go 0 .grant, .go 0 .grant, .go 0 .grant, .go 0 .grant]
    s.runs = [(0, 1)] ∧ (s.proc.map (fun p => p.calls.map (·.pc))) = some [.draining] ∧
    ((step (fun _ _ => true) cfg0 s (.go 0 .grant)).proc.map (fun p => p.calls.map (·.pc))) = some [.draining] ∧
    ((run (fun _ _ => true) cfg0 s [.finish 0 .completed, .go 0 .grant]).proc.map (fun p => p.calls.map (·.pc))) = some [.done] := by
  refine ⟨by decide, by decide, by decide, by decide⟩

end Verif.Executor
