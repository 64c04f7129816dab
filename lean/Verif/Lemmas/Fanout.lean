import Verif.Model.Fanout

set_option linter.unusedSectionVars false
set_option linter.unusedSimpArgs false
set_option linter.unusedVariables false

namespace Verif.Fanout

theorem upd_same {α : Type} (f : Nat → α) (i : Nat) (v : α) : upd f i v i = v := by simp [upd]
theorem upd_other {α : Type} (f : Nat → α) {i j : Nat} (v : α) (h : j ≠ i) : upd f i v j = f j := by simp [upd, h]

theorem record_st (cfg : Cfg) (s : Sys) (i : Nat) (o : Outcome) : (record cfg s i o).st = upd s.st i .ended := by
  simp only [record]; split
  · rfl
  · split <;> rfl

theorem record_out (cfg : Cfg) (s : Sys) (i : Nat) (o : Outcome) : (record cfg s i o).out = upd s.out i (some o) := by
  simp only [record]; split
  · rfl
  · split <;> rfl

theorem record_ext (cfg : Cfg) (s : Sys) (i : Nat) (o : Outcome) : (record cfg s i o).ext = s.ext := by
  simp only [record]; split
  · rfl
  · split <;> rfl

theorem record_quiet (cfg : Cfg) (s : Sys) (i : Nat) (o : Outcome) (h : o.isOk = true ∨ cfg.returnExc = true) :
    (record cfg s i o).scope = s.scope ∧ (record cfg s i o).errs = s.errs := by
  have : (o.isOk || cfg.returnExc) = true := by rcases h with h | h <;> simp [h]
  simp [record, this]

theorem record_loud (cfg : Cfg) (s : Sys) (i : Nat) (o : Outcome) (h : o.isOk = false) (hr : cfg.returnExc = false) (hc : o ≠ .cancelled) :
    (record cfg s i o).scope = true ∧ (record cfg s i o).errs = s.errs ++ [(i, o)] := by
  simp [record, h, hr, hc]

theorem record_cancelled (cfg : Cfg) (s : Sys) (i : Nat) (hr : cfg.returnExc = false) :
    (record cfg s i .cancelled).scope = true ∧ (record cfg s i .cancelled).errs = s.errs := by
  simp [record, Outcome.isOk, hr]

theorem foldl_inv {P : Sys → Prop} (cfg : Cfg) (hstep : ∀ s a, P s → P (step cfg s a)) (acts : List Act) {s : Sys} (h : P s) :
    P (acts.foldl (step cfg) s) := by
  induction acts generalizing s with
  | nil => exact h
  | cons a acts ih => exact ih (hstep s a h)

theorem foldl_inv' {P : Sys → Prop} {Q : Act → Prop} (cfg : Cfg) (hstep : ∀ s a, Q a → P s → P (step cfg s a)) (acts : List Act) (hq : ∀ a ∈ acts, Q a) {s : Sys} (h : P s) :
    P (acts.foldl (step cfg) s) := by
  induction acts generalizing s with
  | nil => exact h
  | cons a acts ih => exact ih (fun b hb => hq b (by simp [hb])) (hstep s a (hq a (by simp)) h)

/-! ### Concurrency bound -/

theorem filter_upd_length (l : List Nat) (hl : l.Nodup) (f : Nat → St) (i : Nat) (v : St) :
    (l.filter (fun j => upd f i v j == .running)).length ≤ (l.filter (fun j => f j == .running)).length + 1 := by
  induction l with
  | nil => simp
  | cons a l ih =>
    rw [List.nodup_cons] at hl
    by_cases e : a = i
    · subst e
      have h1 : l.filter (fun j => upd f a v j == .running) = l.filter (fun j => f j == .running) := by
        apply List.filter_congr
        intro x hx
        rw [upd_other]
        intro e; subst e; exact hl.1 hx
      simp only [List.filter_cons]
      rw [h1]
      split <;> split <;> (try simp only [List.length_cons]) <;> omega
    · have h2 := ih hl.2
      simp only [List.filter_cons, upd_other f v e]
      split <;> (try simp only [List.length_cons]) <;> omega

theorem filter_upd_ended (l : List Nat) (f : Nat → St) (i : Nat) (v : St) (hv : v ≠ .running) :
    (l.filter (fun j => upd f i v j == .running)).length ≤ (l.filter (fun j => f j == .running)).length := by
  induction l with
  | nil => simp
  | cons a l ih =>
    by_cases e : a = i
    · subst e
      simp only [List.filter_cons, upd_same]
      have : ¬ (v == St.running) = true := by simpa using hv
      rw [if_neg this]
      split <;> (try simp only [List.length_cons]) <;> omega
    · simp only [List.filter_cons, upd_other f v e]
      split <;> (try simp only [List.length_cons]) <;> omega

theorem step_bound (cfg : Cfg) (k : Nat) (hk : cfg.limit = some k) (s : Sys) (a : Act) (h : (running cfg s).length ≤ k) :
    (running cfg (step cfg s a)).length ≤ k := by
  have rec_le : ∀ i o, (running cfg (record cfg s i o)).length ≤ k := by
    intro i o
    simp only [running, record_st]
    exact Nat.le_trans (filter_upd_ended _ _ _ _ (by decide)) h
  cases a with
  | start i =>
    simp only [step]
    split
    · next hc =>
      have hf := hc.2.2
      simp only [slotFree, hk, decide_eq_true_eq] at hf
      simp only [running]
      have := filter_upd_length (List.range cfg.n) List.nodup_range s.st i .running
      simp only [running] at hf
      omega
    · exact h
  | finish i =>
    simp only [step]
    split
    · exact rec_le _ _
    · exact h
  | cancel i o =>
    simp only [step]
    split
    · split
      · exact rec_le _ _
      · split
        · split
          · exact rec_le _ _
          · simp only [running]
            exact Nat.le_trans (filter_upd_ended _ _ _ _ (by decide)) h
        · exact h
    · exact h
  | extCancel => exact h

/-! ### Results when nothing is cancelled -/

/-- Nothing was cancelled and each ended task stored its own outcome. -/
structure Calm (cfg : Cfg) (s : Sys) : Prop where
  scope : s.scope = false
  ext : s.ext = false
  errs : s.errs = []
  out : ∀ i, s.st i = .ended → s.out i = some (cfg.res i)

theorem calm_step (cfg : Cfg) (hq : ∀ i, i < cfg.n → (cfg.res i).isOk = true ∨ cfg.returnExc = true) (s : Sys) (a : Act) (ha : a ≠ .extCancel)
    (h : Calm cfg s) : Calm cfg (step cfg s a) := by
  cases a with
  | start i =>
    simp only [step]
    split
    · next hc =>
      refine ⟨h.scope, h.ext, h.errs, ?_⟩
      intro j hj
      simp only at hj
      by_cases e : j = i
      · subst e; rw [upd_same] at hj; cases hj
      · rw [upd_other _ _ e] at hj; exact h.out j hj
    · exact h
  | finish i =>
    simp only [step]
    split
    · next hc =>
      obtain ⟨h1, h2⟩ := record_quiet cfg s i (cfg.res i) (hq i hc.1)
      refine ⟨by rw [h1, h.scope], by rw [record_ext, h.ext], by rw [h2, h.errs], ?_⟩
      intro j hj
      rw [record_st] at hj
      rw [record_out]
      by_cases e : j = i
      · subst e; rw [upd_same]
      · rw [upd_other _ _ e] at hj ⊢; exact h.out j hj
    · exact h
  | cancel i o =>
    simp only [step, h.scope]
    simp only [Bool.false_eq_true, and_false, if_false]
    exact h
  | extCancel => exact absurd rfl ha

/-! ### Failures -/

/-- While the scope is not cancelled no task failed; once an exception was collected, the first one is the own failure of its task. -/
structure Fail (cfg : Cfg) (s : Sys) : Prop where
  ext : s.ext = false
  calm : s.scope = false → s.errs = [] ∧ ∀ i, i < cfg.n → s.st i = .ended → s.out i = some (cfg.res i) ∧ (cfg.res i).isOk = true
  first : s.scope = true → ∃ i o rest, s.errs = (i, o) :: rest ∧ i < cfg.n ∧ o = cfg.res i ∧ o.isOk = false
  bad : ∀ p ∈ s.errs, p.2.isOk = false ∧ p.2 ≠ .cancelled ∧ p.1 < cfg.n ∧ s.st p.1 = .ended ∧ s.out p.1 = some p.2
  nodup : (s.errs.map (·.1)).Nodup

theorem fail_record {cfg : Cfg} {s : Sys} (hr : cfg.returnExc = false) (i : Nat) (o : Outcome) (hi : i < cfg.n) (hst : s.st i ≠ .ended)
    (hq : o = cfg.res i ∧ o ≠ .cancelled ∨ s.scope = true) (h : Fail cfg s) : Fail cfg (record cfg s i o) := by
  have hnotin : ∀ p ∈ s.errs, p.1 ≠ i := by
    intro p hp e
    exact hst (e ▸ (h.bad p hp).2.2.2.1)
  cases hok : o.isOk with
  | true =>
    obtain ⟨h1, h2⟩ := record_quiet cfg s i o (Or.inl hok)
    refine ⟨by rw [record_ext, h.ext], ?_, ?_, ?_, by rw [h2]; exact h.nodup⟩
    · intro hs
      rw [h1] at hs
      refine ⟨by rw [h2]; exact (h.calm hs).1, ?_⟩
      intro j hj hje
      rw [record_st] at hje
      rw [record_out]
      by_cases e : j = i
      · subst e
        rw [upd_same]
        rcases hq with hq | hq
        · exact ⟨by rw [hq.1], by rw [← hq.1]; exact hok⟩
        · rw [hs] at hq; cases hq
      · rw [upd_other _ _ e] at hje ⊢; exact (h.calm hs).2 j hj hje
    · intro hs
      rw [h1] at hs
      rw [h2]; exact h.first hs
    · intro p hp
      rw [h2] at hp
      obtain ⟨b1, b2, b3, b4, b5⟩ := h.bad p hp
      refine ⟨b1, b2, b3, ?_, ?_⟩
      · rw [record_st, upd_other _ _ (hnotin p hp)]; exact b4
      · rw [record_out, upd_other _ _ (hnotin p hp)]; exact b5
  | false =>
    by_cases hc : o = .cancelled
    · subst hc
      have hsc : s.scope = true := by
        rcases hq with hq | hq
        · exact absurd rfl hq.2
        · exact hq
      obtain ⟨h1, h2⟩ := record_cancelled cfg s i hr
      refine ⟨by rw [record_ext, h.ext], (fun hs => by rw [h1] at hs; cases hs), ?_, ?_, by rw [h2]; exact h.nodup⟩
      · intro _; rw [h2]; exact h.first hsc
      · intro p hp
        rw [h2] at hp
        obtain ⟨b1, b2, b3, b4, b5⟩ := h.bad p hp
        refine ⟨b1, b2, b3, ?_, ?_⟩
        · rw [record_st, upd_other _ _ (hnotin p hp)]; exact b4
        · rw [record_out, upd_other _ _ (hnotin p hp)]; exact b5
    · obtain ⟨h1, h2⟩ := record_loud cfg s i o hok hr hc
      refine ⟨by rw [record_ext, h.ext], (fun hs => by rw [h1] at hs; cases hs), ?_, ?_, ?_⟩
      · intro _
        rw [h2]
        cases hsc : s.scope with
        | true =>
          obtain ⟨a, b, rest, e1, e2, e3, e4⟩ := h.first hsc
          exact ⟨a, b, rest ++ [(i, o)], by rw [e1]; rfl, e2, e3, e4⟩
        | false =>
          rcases hq with hq | hq
          · exact ⟨i, o, [], by rw [(h.calm hsc).1]; rfl, hi, hq.1, hok⟩
          · rw [hsc] at hq; cases hq
      · intro p hp
        rw [h2, List.mem_append] at hp
        rw [record_st, record_out]
        rcases hp with hp | hp
        · obtain ⟨b1, b2, b3, b4, b5⟩ := h.bad p hp
          rw [upd_other _ _ (hnotin p hp), upd_other _ _ (hnotin p hp)]
          exact ⟨b1, b2, b3, b4, b5⟩
        · simp at hp; subst hp
          exact ⟨hok, hc, hi, upd_same _ _ _, upd_same _ _ _⟩
      · rw [h2, List.map_append, List.nodup_append]
        refine ⟨h.nodup, by simp, ?_⟩
        intro a ha b hb
        simp at hb; subst hb
        rw [List.mem_map] at ha
        obtain ⟨p, hp, rfl⟩ := ha
        exact hnotin p hp

theorem fail_step (cfg : Cfg) (hr : cfg.returnExc = false) (hq : ∀ i, i < cfg.n → cfg.res i ≠ .cancelled) (s : Sys) (a : Act) (ha : a ≠ .extCancel)
    (h : Fail cfg s) : Fail cfg (step cfg s a) := by
  cases a with
  | start i =>
    simp only [step]
    split
    · next hc =>
      have hb : ∀ p ∈ s.errs, p.1 ≠ i := by
        intro p hp e
        have := (h.bad p hp).2.2.2.1
        rw [e, hc.2.1] at this; cases this
      refine ⟨h.ext, ?_, h.first, ?_, h.nodup⟩
      · intro hs
        refine ⟨(h.calm hs).1, ?_⟩
        intro j hj hje
        simp only at hje
        by_cases e : j = i
        · subst e; rw [upd_same] at hje; cases hje
        · rw [upd_other _ _ e] at hje; exact (h.calm hs).2 j hj hje
      · intro p hp
        obtain ⟨b1, b2, b3, b4, b5⟩ := h.bad p hp
        exact ⟨b1, b2, b3, by simp only; rw [upd_other _ _ (hb p hp)]; exact b4, b5⟩
    · exact h
  | finish i =>
    simp only [step]
    split
    · next hc => exact fail_record hr i _ hc.1 (by rw [hc.2]; simp) (Or.inl ⟨rfl, hq i hc.1⟩) h
    · exact h
  | cancel i o =>
    simp only [step]
    split
    · next hc =>
      split
      · next hst => exact fail_record hr i _ hc.1 (by rw [hst]; simp) (Or.inr hc.2) h
      · split
        · next hst =>
          split
          · exact fail_record hr i _ hc.1 (by rw [hst]; simp) (Or.inr hc.2) h
          · have hb : ∀ p ∈ s.errs, p.1 ≠ i := by
              intro p hp e
              have := (h.bad p hp).2.2.2.1
              rw [e, hst] at this; cases this
            refine ⟨h.ext, (fun hs => by rw [hc.2] at hs; cases hs), h.first, ?_, h.nodup⟩
            intro p hp
            obtain ⟨b1, b2, b3, b4, b5⟩ := h.bad p hp
            exact ⟨b1, b2, b3, by simp only; rw [upd_other _ _ (hb p hp)]; exact b4, b5⟩
        · exact h
    · exact h
  | extCancel => exact absurd rfl ha

/-! ### Progress -/

def cost : St → Nat
  | .waiting => 2
  | .running => 1
  | .ended => 0

def costs (f : Nat → St) : List Nat → Nat
  | [] => 0
  | a :: l => cost (f a) + costs f l

theorem costs_upd_notin (f : Nat → St) (i : Nat) (v : St) {l : List Nat} (h : i ∉ l) : costs (upd f i v) l = costs f l := by
  induction l with
  | nil => rfl
  | cons a l ih =>
    simp only [List.mem_cons, not_or] at h
    rw [costs, costs, ih h.2, upd_other _ _ (fun e => h.1 e.symm)]

theorem costs_upd (f : Nat → St) (i : Nat) (v : St) {l : List Nat} (hl : l.Nodup) (h : i ∈ l) :
    costs (upd f i v) l + cost (f i) = costs f l + cost v := by
  induction l with
  | nil => cases h
  | cons a l ih =>
    rw [List.nodup_cons] at hl
    rw [costs, costs]
    by_cases e : a = i
    · subst e
      rw [upd_same, costs_upd_notin _ _ _ hl.1]; omega
    · rw [upd_other _ _ e]
      rw [List.mem_cons] at h
      rcases h with h | h
      · exact absurd h.symm e
      · have := ih hl.2 h; omega

theorem costs_zero (f : Nat → St) (l : List Nat) (h : costs f l = 0) : ∀ i ∈ l, f i = .ended := by
  induction l with
  | nil => intro i hi; cases hi
  | cons a l ih =>
    rw [costs] at h
    intro i hi
    rw [List.mem_cons] at hi
    rcases hi with rfl | hi
    · cases hc : f i with
      | ended => rfl
      | waiting => rw [hc] at h; simp [cost] at h
      | running => rw [hc] at h; simp [cost] at h
    · exact ih (by omega) i hi

theorem costs_pos (f : Nat → St) (l : List Nat) (h : costs f l ≠ 0) : ∃ i ∈ l, f i ≠ .ended := by
  induction l with
  | nil => exact absurd rfl h
  | cons a l ih =>
    rw [costs] at h
    by_cases e : f a = .ended
    · rw [e] at h
      simp only [cost, Nat.zero_add] at h
      obtain ⟨i, hi, h2⟩ := ih h
      exact ⟨i, by simp [hi], h2⟩
    · exact ⟨a, by simp, e⟩

theorem progress_step (cfg : Cfg) (hk : cfg.limit ≠ some 0) (s : Sys) (h : costs s.st (List.range cfg.n) ≠ 0) :
    ∃ a, ((∃ i, a = .start i) ∨ (∃ i, a = .finish i)) ∧ costs (step cfg s a).st (List.range cfg.n) < costs s.st (List.range cfg.n) := by
  have fin : ∀ i, i < cfg.n → s.st i = .running → ∃ a, ((∃ i, a = .start i) ∨ (∃ i, a = .finish i)) ∧ costs (step cfg s a).st (List.range cfg.n) < costs s.st (List.range cfg.n) := by
    intro i hi hr
    refine ⟨.finish i, Or.inr ⟨i, rfl⟩, ?_⟩
    have h2 := costs_upd s.st i .ended (List.nodup_range (n := cfg.n)) (List.mem_range.2 hi)
    simp only [step, hi, hr, and_self, if_true, record_st]
    rw [hr] at h2
    simp only [cost] at h2
    omega
  obtain ⟨i, hi, hne⟩ := costs_pos _ _ h
  rw [List.mem_range] at hi
  cases hst : s.st i with
  | ended => exact absurd hst hne
  | running => exact fin i hi hst
  | waiting =>
    cases hf : slotFree cfg s with
    | true =>
      refine ⟨.start i, Or.inl ⟨i, rfl⟩, ?_⟩
      have h2 := costs_upd s.st i .running (List.nodup_range (n := cfg.n)) (List.mem_range.2 hi)
      simp only [step, hi, hst, hf, and_self, if_true]
      rw [hst] at h2
      simp only [cost] at h2
      omega
    | false =>
      have hpos : 0 < (running cfg s).length := by
        unfold slotFree at hf
        cases hl : cfg.limit with
        | none => rw [hl] at hf; cases hf
        | some k =>
          rw [hl] at hf
          simp only [decide_eq_false_iff_not] at hf
          have : k ≠ 0 := fun e => hk (by rw [hl, e])
          omega
      obtain ⟨j, hj⟩ := List.exists_mem_of_length_pos hpos
      simp only [running, List.mem_filter, List.mem_range, beq_iff_eq] at hj
      exact fin j hj.1 hj.2

theorem progress (cfg : Cfg) (hk : cfg.limit ≠ some 0) (m : Nat) (s : Sys) (hm : costs s.st (List.range cfg.n) ≤ m) :
    ∃ acts : List Act, (∀ a ∈ acts, a ≠ .extCancel) ∧ (final cfg (acts.foldl (step cfg) s)).isSome = true := by
  induction m generalizing s with
  | zero =>
    refine ⟨[], by simp, ?_⟩
    have h0 := costs_zero s.st (List.range cfg.n) (by omega)
    have : (List.range cfg.n).all (fun i => s.st i == .ended) = true := by
      rw [List.all_eq_true]; intro i hi; rw [h0 i hi]; rfl
    simp only [List.foldl_nil, final, this, if_true]
    by_cases he : s.errs = []
    · by_cases hx : s.ext = true <;> simp [he, hx]
    · simp [he]
  | succ m ih =>
    by_cases h0 : costs s.st (List.range cfg.n) = 0
    · exact ih s (by omega)
    · obtain ⟨a, ha, hlt⟩ := progress_step cfg hk s h0
      obtain ⟨acts, h1, h2⟩ := ih (step cfg s a) (by omega)
      refine ⟨a :: acts, ?_, h2⟩
      intro b hb
      rw [List.mem_cons] at hb
      rcases hb with rfl | hb
      · rcases ha with ⟨i, rfl⟩ | ⟨i, rfl⟩ <;> simp
      · exact h1 b hb

theorem final_ended {cfg : Cfg} {s : Sys} {f : Final} (h : final cfg s = some f) : ∀ i, i < cfg.n → s.st i = .ended := by
  intro i hi
  unfold final at h
  split at h
  · next ha => rw [List.all_eq_true] at ha; simpa using ha i (List.mem_range.2 hi)
  · cases h

end Verif.Fanout
