import Verif.Model.StreamFail
import Verif.Lemmas.Fanout
import Verif.Py.ListLemmas

/-!
# C221: a `CompletionStream` with awaitables that fail
-/

set_option linter.unusedSectionVars false
set_option linter.unusedSimpArgs false
set_option linter.unusedVariables false

namespace Verif.StreamFail

open Verif.Fanout (Outcome St upd costs cost costs_upd)

/-! ## Specification vocabulary -/

/-- A failure: an exception that is not a cancellation. -/
def Failure (o : Outcome) : Prop := (∃ e, o = .exc e) ∨ ∃ e, o = .base e

/-- What an execution keeps true. -/
structure Inv (cfg : Cfg) (s : Sys) : Prop where
  vals : ∀ p ∈ s.got ++ s.buf, p.1 < cfg.n ∧ s.st p.1 = .ended ∧ cfg.res p.1 = .ok p.2
  nodup : ((s.got ++ s.buf).map (·.1)).Nodup
  errs : ∀ p ∈ s.errs, p.1 < cfg.n ∧ s.st p.1 = .ended ∧ Failure p.2
  errsNodup : (s.errs.map (·.1)).Nodup
  clean : s.scope = false → s.errs = [] ∧ ∀ i, i < cfg.n → s.st i = .ended → ∃ v, (i, v) ∈ s.got ++ s.buf
  body : s.body = .cancelled → s.scope = true
  cause : s.scope = true → s.errs ≠ [] ∨ ∃ i, i < cfg.n ∧ cfg.res i = .cancelled
  first : ∀ p, s.errs.head? = some p → cfg.res p.1 = p.2 ∨ ∃ i, i < cfg.n ∧ cfg.res i = .cancelled

theorem failure_cases (o : Outcome) : (∃ v, o = .ok v) ∨ o = .cancelled ∨ Failure o := by
  cases o <;> simp [Failure]

theorem close_failure (s : Sys) (i : Nat) {o : Outcome} (h : Failure o) :
    close s i o = { s with st := upd s.st i .ended, scope := true, errs := s.errs ++ [(i, o)] } := by
  rcases h with ⟨e, rfl⟩ | ⟨e, rfl⟩ <;> rfl

theorem upd_ended {st : Nat → St} {i j : Nat} (h : st j = .ended) : upd st i .ended j = .ended := by
  unfold upd; split <;> simp_all

theorem inv_end {cfg : Cfg} {s : Sys} (h : Inv cfg s) {i : Nat} (hi : i < cfg.n) (hst : s.st i ≠ .ended) {o : Outcome}
    (ho : s.scope = true ∨ o = cfg.res i) : Inv cfg (close s i o) := by
  have notGot : ∀ p ∈ s.got ++ s.buf, p.1 ≠ i := fun p hp e => hst (e ▸ (h.vals p hp).2.1)
  have notErr : ∀ p ∈ s.errs, p.1 ≠ i := fun p hp e => hst (e ▸ (h.errs p hp).2.1)
  rcases failure_cases o with ⟨v, rfl⟩ | rfl | hf
  · simp only [close]
    by_cases hs : s.scope = true
    · rw [if_pos hs]
      exact ⟨fun p hp => ⟨(h.vals p hp).1, upd_ended (h.vals p hp).2.1, (h.vals p hp).2.2⟩, h.nodup,
        fun p hp => ⟨(h.errs p hp).1, upd_ended (h.errs p hp).2.1, (h.errs p hp).2.2⟩, h.errsNodup,
        fun hc => (by simp [hs] at hc), h.body, h.cause, h.first⟩
    · rw [if_neg hs]
      have hres : cfg.res i = .ok v := by
        rcases ho with ho | ho
        · exact absurd ho hs
        · exact ho.symm
      refine ⟨?_, ?_, ?_, h.errsNodup, ?_, h.body, h.cause, h.first⟩
      · intro p hp
        simp only [← List.append_assoc, List.mem_append, List.mem_singleton] at hp
        rcases hp with hp | rfl
        · have := h.vals p (by simpa using hp)
          exact ⟨this.1, upd_ended this.2.1, this.2.2⟩
        · exact ⟨hi, by simp [upd], hres⟩
      · simp only [← List.append_assoc, List.map_append, List.map_cons, List.map_nil]
        rw [← List.map_append, List.nodup_append]
        refine ⟨h.nodup, by simp, ?_⟩
        intro a ha b hb
        obtain ⟨p, hp, rfl⟩ := List.mem_map.1 ha
        simp only [List.mem_singleton] at hb
        rw [hb]; exact notGot p hp
      · exact fun p hp => ⟨(h.errs p hp).1, upd_ended (h.errs p hp).2.1, (h.errs p hp).2.2⟩
      · intro hc
        refine ⟨(h.clean hc).1, ?_⟩
        intro j hj hje
        by_cases hij : j = i
        · subst hij; exact ⟨v, by simp⟩
        · simp only [upd, hij, if_false] at hje
          obtain ⟨w, hw⟩ := (h.clean hc).2 j hj hje
          exact ⟨w, by simp only [← List.append_assoc, List.mem_append]; left; simpa using hw⟩
  · simp only [close]
    refine ⟨fun p hp => ⟨(h.vals p hp).1, upd_ended (h.vals p hp).2.1, (h.vals p hp).2.2⟩, h.nodup,
      fun p hp => ⟨(h.errs p hp).1, upd_ended (h.errs p hp).2.1, (h.errs p hp).2.2⟩, h.errsNodup, fun hc => (by simp at hc), fun _ => rfl, ?_, h.first⟩
    intro _
    by_cases hs : s.scope = true
    · exact h.cause hs
    · rcases ho with ho | ho
      · exact absurd ho hs
      · exact Or.inr ⟨i, hi, ho.symm⟩
  · rw [close_failure s i hf]
    refine ⟨fun p hp => ⟨(h.vals p hp).1, upd_ended (h.vals p hp).2.1, (h.vals p hp).2.2⟩, h.nodup, ?_, ?_, fun hc => (by simp at hc),
      fun _ => rfl, fun _ => Or.inl (by simp), ?_⟩
    · intro p hp
      simp only [List.mem_append, List.mem_singleton] at hp
      rcases hp with hp | rfl
      · exact ⟨(h.errs p hp).1, upd_ended (h.errs p hp).2.1, (h.errs p hp).2.2⟩
      · exact ⟨hi, by simp [upd], hf⟩
    · simp only [List.map_append, List.map_cons, List.map_nil]
      rw [List.nodup_append]
      refine ⟨h.errsNodup, by simp, ?_⟩
      intro a ha b hb
      obtain ⟨p, hp, rfl⟩ := List.mem_map.1 ha
      simp only [List.mem_singleton] at hb
      rw [hb]; exact notErr p hp
    · intro p hp
      cases he : s.errs with
      | cons q l =>
        simp only [he, List.cons_append, List.head?_cons, Option.some.injEq] at hp
        exact h.first p (by rw [he, ← hp]; rfl)
      | nil =>
        simp only [he, List.nil_append, List.head?_cons, Option.some.injEq] at hp
        subst hp
        by_cases hs : s.scope = true
        · rcases h.cause hs with hc | hc
          · exact absurd he hc
          · exact Or.inr hc
        · rcases ho with ho | ho
          · exact absurd ho hs
          · exact Or.inl ho.symm

theorem inv_step {cfg : Cfg} {s : Sys} (h : Inv cfg s) (a : Act) : Inv cfg (step cfg s a) := by
  have keep : ∀ {i : Nat} {v : St} {j : Nat}, s.st i ≠ .ended → s.st j = .ended → upd s.st i v j = .ended := by
    intro i v j h1 h2
    unfold upd
    split
    · next e => subst e; exact absurd h2 h1
    · exact h2
  cases a with
  | start i =>
    simp only [step]
    split
    · next hc =>
      have hne : s.st i ≠ .ended := by rw [hc.2.1]; decide
      refine ⟨fun p hp => ⟨(h.vals p hp).1, keep hne (h.vals p hp).2.1, (h.vals p hp).2.2⟩, h.nodup,
        fun p hp => ⟨(h.errs p hp).1, keep hne (h.errs p hp).2.1, (h.errs p hp).2.2⟩, h.errsNodup, ?_, h.body, h.cause, h.first⟩
      intro hs
      refine ⟨(h.clean hs).1, fun j hj hje => (h.clean hs).2 j hj ?_⟩
      simp only [upd] at hje
      split at hje
      · cases hje
      · exact hje
    · exact h
  | finish i =>
    simp only [step]
    split
    · next hc => exact inv_end h hc.1 (by rw [hc.2]; decide) (Or.inr rfl)
    · exact h
  | cancel i o =>
    simp only [step]
    split
    · next hc => exact inv_end h hc.1 (by rw [hc.2.2]; decide) (Or.inl hc.2.1)
    · split
      · next hc =>
        have hne : s.st i ≠ .ended := by rw [hc.2.2]; decide
        exact ⟨fun p hp => ⟨(h.vals p hp).1, keep hne (h.vals p hp).2.1, (h.vals p hp).2.2⟩, h.nodup,
          fun p hp => ⟨(h.errs p hp).1, keep hne (h.errs p hp).2.1, (h.errs p hp).2.2⟩, h.errsNodup,
          fun hs => (by rw [hc.2.1] at hs; cases hs), h.body, h.cause, h.first⟩
      · exact h
  | next =>
    simp only [step, next]
    split
    · exact h
    · split
      · next hs => exact ⟨h.vals, h.nodup, h.errs, h.errsNodup, h.clean, fun _ => hs, h.cause, h.first⟩
      · split
        · exact h
        · next x b hb =>
          have e : s.got ++ [x] ++ b = s.got ++ s.buf := by rw [hb]; simp
          refine ⟨?_, ?_, h.errs, h.errsNodup, ?_, h.body, h.cause, h.first⟩
          · intro p hp; exact h.vals p (by rw [← e]; exact hp)
          · show ((s.got ++ [x] ++ b).map (·.1)).Nodup
            rw [e]; exact h.nodup
          · intro hs
            refine ⟨(h.clean hs).1, fun j hj hje => ?_⟩
            obtain ⟨v, hv⟩ := (h.clean hs).2 j hj hje
            exact ⟨v, by show (j, v) ∈ s.got ++ [x] ++ b; rw [e]; exact hv⟩
  | leave =>
    simp only [step]
    split
    · exact ⟨h.vals, h.nodup, h.errs, h.errsNodup, h.clean, fun hb => (by cases hb), h.cause, h.first⟩
    · exact h

theorem inv_run (cfg : Cfg) (acts : List Act) : Inv cfg (run cfg acts) := by
  have key : ∀ (acts : List Act) (s : Sys), Inv cfg s → Inv cfg (acts.foldl (step cfg) s) := by
    intro acts
    induction acts with
    | nil => intro s h; exact h
    | cons a acts ih => intro s h; exact ih _ (inv_step h a)
  refine key acts {} ⟨?_, ?_, ?_, ?_, ?_, ?_, ?_, ?_⟩
  · intro p hp; cases hp
  · exact List.nodup_nil
  · intro p hp; cases hp
  · exact List.nodup_nil
  · intro _; exact ⟨rfl, fun i _ hi => (by cases hi)⟩
  · intro h; cases h
  · intro h; cases h
  · intro p hp; cases hp

/-! ## C221 -/

/-- C221: whatever the outcomes and the schedule, each result handed to the consumer is the value of its awaitable, and
no awaitable's result is handed out twice. -/
theorem C221_values (cfg : Cfg) (acts : List Act) :
    ((run cfg acts).got.map (·.1)).Nodup ∧ ∀ p ∈ (run cfg acts).got, p.1 < cfg.n ∧ cfg.res p.1 = .ok p.2 := by
  have h := inv_run cfg acts
  refine ⟨?_, ?_⟩
  · have := h.nodup
    rw [List.map_append] at this
    exact (List.nodup_append.1 this).1
  · intro p hp
    have := h.vals p (by simp [hp])
    exact ⟨this.1, this.2.2⟩

theorem final_cases {cfg : Cfg} {s : Sys} {f : Final} (h : final cfg s = some f) :
    s.body ≠ .inside ∧ (∀ i, i < cfg.n → s.st i = .ended) ∧
      ((s.errs ≠ [] ∧ f = .raised s.errs) ∨ (s.errs = [] ∧ s.body = .cancelled ∧ f = .cancelled) ∨ (s.errs = [] ∧ s.body = .done ∧ f = .quiet)) := by
  unfold final at h
  split at h
  · cases h
  · next hc =>
    have hb : s.body ≠ .inside := fun hb => hc (Or.inl hb)
    have hall : (List.range cfg.n).all (fun i => s.st i == .ended) = true := by
      cases hx : (List.range cfg.n).all (fun i => s.st i == .ended) with
      | true => rfl
      | false => exact absurd (Or.inr hx) hc
    refine ⟨hb, ?_, ?_⟩
    · intro i hi
      have := List.all_eq_true.1 hall i (List.mem_range.2 hi)
      simpa using this
    · split at h
      · next he => exact Or.inl ⟨he, (Option.some.inj h).symm⟩
      · next he =>
        have he : s.errs = [] := Decidable.not_not.1 he
        split at h
        · next hbc => exact Or.inr (Or.inl ⟨he, hbc, (Option.some.inj h).symm⟩)
        · next hbc =>
          refine Or.inr (Or.inr ⟨he, ?_, (Option.some.inj h).symm⟩)
          cases hbb : s.body with
          | inside => exact absurd hbb hb
          | done => rfl
          | cancelled => exact absurd hbb hbc

/-- C221: an iteration that reaches its end has handed out the value of every awaitable. -/
theorem C221_end (cfg : Cfg) (acts : List Act) (h : cfg.n ≤ (run cfg acts).got.length) (i : Nat) (hi : i < cfg.n) :
    ∃ v, cfg.res i = .ok v ∧ (i, v) ∈ (run cfg acts).got := by
  obtain ⟨hn, hv⟩ := C221_values cfg acts
  have hsub : (run cfg acts).got.map (·.1) ⊆ List.range cfg.n := by
    intro a ha
    obtain ⟨p, hp, rfl⟩ := List.mem_map.1 ha
    exact List.mem_range.2 (hv p hp).1
  have hp := perm_of_nodup_subset hn hsub (by simpa using h)
  have hm : i ∈ (run cfg acts).got.map (·.1) := hp.mem_iff.2 (List.mem_range.2 hi)
  obtain ⟨p, hp, rfl⟩ := List.mem_map.1 hm
  exact ⟨p.2, (hv p hp).2, hp⟩

/-- C221: if the statement raises a group, its members are failures of the awaitables, at most one for each, and the
first is the failure with which its awaitable ends by itself, unless an awaitable had ended in a cancellation before. -/
theorem C221_raised (cfg : Cfg) (acts : List Act) (errs : List (Nat × Outcome)) (hf : final cfg (run cfg acts) = some (.raised errs)) :
    (errs.map (·.1)).Nodup ∧ (∀ p ∈ errs, p.1 < cfg.n ∧ Failure p.2) ∧
      ∃ i o rest, errs = (i, o) :: rest ∧ (o = cfg.res i ∨ ∃ j, j < cfg.n ∧ cfg.res j = .cancelled) := by
  have h := inv_run cfg acts
  obtain ⟨-, -, ⟨hne, he⟩ | ⟨-, -, he⟩ | ⟨-, -, he⟩⟩ := final_cases hf
  · rw [Final.raised.injEq] at he
    subst he
    refine ⟨h.errsNodup, fun p hp => ⟨(h.errs p hp).1, (h.errs p hp).2.2⟩, ?_⟩
    cases hl : (run cfg acts).errs with
    | nil => exact absurd hl hne
    | cons p rest =>
      refine ⟨p.1, p.2, rest, rfl, ?_⟩
      rcases h.first p (by rw [hl]; rfl) with hr | hr
      · exact Or.inl hr.symm
      · exact Or.inr hr
  · cases he
  · cases he

/-- C221: if no awaitable ends in a cancellation, the statement ends without raising only if every awaitable ended with
its value (handed out, or left in the stream by a consumer that stopped early); otherwise it raises a group. -/
theorem C221_quiet (cfg : Cfg) (hc : ∀ i, i < cfg.n → cfg.res i ≠ .cancelled) (acts : List Act) (f : Final)
    (hf : final cfg (run cfg acts) = some f) :
    (f = .quiet ∧ ∀ i, i < cfg.n → ∃ v, cfg.res i = .ok v ∧ (i, v) ∈ (run cfg acts).got ++ (run cfg acts).buf) ∨
    ∃ errs, f = .raised errs ∧ ∃ i rest, i < cfg.n ∧ Failure (cfg.res i) ∧ errs = (i, cfg.res i) :: rest := by
  have h := inv_run cfg acts
  have noCause : (run cfg acts).errs = [] → (run cfg acts).scope = false := by
    intro he
    cases hs : (run cfg acts).scope with
    | false => rfl
    | true =>
      rcases h.cause hs with h1 | ⟨i, hi, hr⟩
      · exact absurd he h1
      · exact absurd hr (hc i hi)
  obtain ⟨-, hend, ⟨hne, he⟩ | ⟨he0, hb, he⟩ | ⟨he0, hb, he⟩⟩ := final_cases hf
  · right
    subst he
    refine ⟨_, rfl, ?_⟩
    obtain ⟨-, h2, i, o, rest, h3, h4⟩ := C221_raised cfg acts _ hf
    have h5 := h2 (i, o) (by rw [h3]; simp)
    rcases h4 with h4 | ⟨j, hj, hr⟩
    · subst h4; exact ⟨i, rest, h5.1, h5.2, h3⟩
    · exact absurd hr (hc j hj)
  · have := noCause he0
    rw [h.body hb] at this
    cases this
  · left
    refine ⟨he, ?_⟩
    intro i hi
    obtain ⟨v, hv⟩ := (h.clean (noCause he0)).2 i hi (hend i hi)
    exact ⟨v, (h.vals _ hv).2.2, hv⟩

/-- C221: a cancellation that nobody asked for leaves the statement only if an awaitable ended in a cancellation. -/
theorem C221_cancelled (cfg : Cfg) (acts : List Act) (hf : final cfg (run cfg acts) = some .cancelled) :
    ∃ i, i < cfg.n ∧ cfg.res i = .cancelled := by
  have h := inv_run cfg acts
  obtain ⟨-, hend, ⟨hne, he⟩ | ⟨he0, hb, he⟩ | ⟨he0, hb, he⟩⟩ := final_cases hf
  · cases he
  · rcases h.cause (h.body hb) with h1 | h1
    · exact absurd he0 h1
    · exact h1
  · cases he

/-- C221: once something failed, the consumer gets no further result: its next request ends the block. -/
theorem C221_stops (cfg : Cfg) (s : Sys) (hs : s.scope = true) (hl : s.body = .inside) (hg : s.got.length < cfg.n) :
    (step cfg s .next).body = .cancelled ∧ (step cfg s .next).got = s.got := by
  simp only [step, next]
  rw [if_neg (by simp [hl]; omega), if_pos hs]
  exact ⟨rfl, rfl⟩

theorem progress_step (cfg : Cfg) (s : Sys) (h : costs s.st (List.range cfg.n) ≠ 0) :
    ∃ a, ((∃ i, a = .start i) ∨ (∃ i, a = .finish i)) ∧ costs (step cfg s a).st (List.range cfg.n) < costs s.st (List.range cfg.n) ∧
      (step cfg s a).body = s.body := by
  have hclose : ∀ i o, (close s i o).st = upd s.st i .ended ∧ (close s i o).body = s.body := by
    intro i o
    rcases failure_cases o with ⟨v, rfl⟩ | rfl | hf
    · simp only [close]; split <;> exact ⟨rfl, rfl⟩
    · exact ⟨rfl, rfl⟩
    · rw [close_failure s i hf]; exact ⟨rfl, rfl⟩
  have fin : ∀ i, i < cfg.n → s.st i = .running → ∃ a, ((∃ i, a = .start i) ∨ (∃ i, a = .finish i)) ∧
      costs (step cfg s a).st (List.range cfg.n) < costs s.st (List.range cfg.n) ∧ (step cfg s a).body = s.body := by
    intro i hi hr
    refine ⟨.finish i, Or.inr ⟨i, rfl⟩, ?_⟩
    have h2 := costs_upd s.st i .ended (List.nodup_range (n := cfg.n)) (List.mem_range.2 hi)
    simp only [step, hi, hr, and_self, if_true]
    rw [(hclose i _).1, (hclose i _).2]
    rw [hr] at h2
    simp only [cost] at h2
    exact ⟨by omega, rfl⟩
  obtain ⟨i, hi, hne⟩ := Fanout.costs_pos _ _ h
  rw [List.mem_range] at hi
  cases hst : s.st i with
  | ended => exact absurd hst hne
  | running => exact fin i hi hst
  | waiting =>
    cases hf : slotFree cfg s with
    | true =>
      refine ⟨.start i, Or.inl ⟨i, rfl⟩, ?_⟩
      have h2 := costs_upd s.st i .running (List.nodup_range (n := cfg.n)) (List.mem_range.2 hi)
      simp only [step, hi, hst, hf, and_self, if_true]
      rw [hst] at h2
      simp only [cost] at h2
      exact ⟨by omega, trivial⟩
    | false =>
      have hpos : 0 < ((List.range cfg.n).filter (fun i => s.st i == .running)).length := by
        unfold slotFree at hf
        split at hf
        · cases hf
        · cases hf
        · simp only [decide_eq_false_iff_not] at hf; omega
      obtain ⟨j, hj⟩ := List.exists_mem_of_length_pos hpos
      simp only [List.mem_filter, List.mem_range, beq_iff_eq] at hj
      exact fin j hj.1 hj.2

/-- C221: the statement can always be brought to its end; no limit, failure or order of completions leads to a state in
which it waits for ever. -/
theorem C221_progress (cfg : Cfg) (acts : List Act) : ∃ more, (final cfg (run cfg (acts ++ more))).isSome = true := by
  have key : ∀ (m : Nat) (s : Sys), s.body ≠ .inside → costs s.st (List.range cfg.n) ≤ m →
      ∃ more : List Act, (final cfg (more.foldl (step cfg) s)).isSome = true := by
    intro m
    induction m with
    | zero =>
      intro s hl hm
      refine ⟨[], ?_⟩
      have h0 := Fanout.costs_zero s.st (List.range cfg.n) (by omega)
      have : (List.range cfg.n).all (fun i => s.st i == .ended) = true := by
        rw [List.all_eq_true]; intro i hi; rw [h0 i hi]; rfl
      show (final cfg s).isSome = true
      unfold final
      rw [if_neg (by rw [this]; simp [hl])]
      by_cases he : s.errs ≠ []
      · rw [if_pos he]; rfl
      · rw [if_neg he]
        by_cases hb : s.body = .cancelled
        · rw [if_pos hb]; rfl
        · rw [if_neg hb]; rfl
    | succ m ih =>
      intro s hl hm
      by_cases h0 : costs s.st (List.range cfg.n) = 0
      · exact ih s hl (by omega)
      · obtain ⟨a, -, hlt, hleft⟩ := progress_step cfg s h0
        obtain ⟨more, h2⟩ := ih (step cfg s a) (by rw [hleft]; exact hl) (by omega)
        exact ⟨a :: more, h2⟩
  have hb : (step cfg (run cfg acts) .leave).body ≠ .inside := by
    simp only [step]
    split
    · simp
    · next h => exact h
  obtain ⟨more, h⟩ := key _ (step cfg (run cfg acts) .leave) hb (Nat.le_refl _)
  refine ⟨.leave :: more, ?_⟩
  unfold run at h ⊢
  rw [List.foldl_append]; exact h

theorem running_le (cfg : Cfg) (k : Nat) (hk : cfg.limit = some (k + 1)) (acts : List Act) :
    ((List.range cfg.n).filter (fun i => (run cfg acts).st i == .running)).length ≤ k + 1 := by
  have hend : ∀ (s : Sys) i o, (close s i o).st = upd s.st i .ended := by
    intro s i o
    rcases failure_cases o with ⟨v, rfl⟩ | rfl | hf
    · simp only [close]; split <;> rfl
    · rfl
    · rw [close_failure s i hf]
  have stepB : ∀ (s : Sys) (a : Act), ((List.range cfg.n).filter (fun i => s.st i == .running)).length ≤ k + 1 →
      ((List.range cfg.n).filter (fun i => (step cfg s a).st i == .running)).length ≤ k + 1 := by
    intro s a h
    have hupd : ∀ i, ((List.range cfg.n).filter (fun j => upd s.st i .ended j == .running)).length ≤ k + 1 := by
      intro i
      exact Nat.le_trans (Fanout.filter_upd_ended _ _ _ _ (by decide)) h
    cases a with
    | start i =>
      simp only [step]
      split
      · next hc =>
        have hf := hc.2.2
        simp only [slotFree, hk, decide_eq_true_eq] at hf
        have := Fanout.filter_upd_length (List.range cfg.n) List.nodup_range s.st i .running
        simp only at hf ⊢
        omega
      · exact h
    | finish i =>
      simp only [step]
      split
      · rw [hend]; exact hupd i
      · exact h
    | cancel i o =>
      simp only [step]
      split
      · rw [hend]; exact hupd i
      · split
        · exact hupd i
        · exact h
    | next =>
      simp only [step, next]
      repeat' split
      all_goals exact h
    | leave =>
      simp only [step]
      split <;> exact h
  have key : ∀ (acts : List Act) (s : Sys), ((List.range cfg.n).filter (fun i => s.st i == .running)).length ≤ k + 1 →
      ((List.range cfg.n).filter (fun i => (acts.foldl (step cfg) s).st i == .running)).length ≤ k + 1 := by
    intro acts
    induction acts with
    | nil => intro s h; exact h
    | cons a acts ih => intro s h; exact ih _ (stepB s a h)
  refine key acts {} ?_
  have h2 : (List.range cfg.n).filter (fun i => ({} : Sys).st i == .running) = [] := by
    rw [List.filter_eq_nil_iff]
    intro a _ h; cases h
  rw [h2]; exact Nat.zero_le _

/-- C221: with a positive limit at most that many awaitables run at a time, failures or not. -/
theorem C221_bound (cfg : Cfg) (k : Nat) (hk : cfg.limit = some (k + 1)) (acts : List Act) :
    ((List.range cfg.n).filter (fun i => (run cfg acts).st i == .running)).length ≤ k + 1 :=
  running_le cfg k hk acts

/-- The domain is needed: an awaitable that ends in a cancellation (for instance a task cancelled elsewhere) stops the
iteration, its siblings are cancelled, and a cancellation that nobody asked for goes on to the caller. -/
theorem C221_cancelled_limit : ∃ (cfg : Cfg) (acts : List Act), final cfg (run cfg acts) = some .cancelled ∧
    (run cfg acts).got = [] ∧ (run cfg acts).buf = [] ∧ cfg.n = 2 ∧ cfg.res 0 = .ok 7 :=
  ⟨{ n := 2, limit := none, res := fun i => if i = 0 then .ok 7 else .cancelled },
    [.start 0, .start 1, .finish 1, .next, .cancel 0 .cancelled], by decide⟩

/-- Non-vacuity: one result is handed out, then the second awaitable fails, the third is cancelled and fails too. -/
example :
    let cfg : Cfg := { n := 3, limit := none, res := fun i => if i = 0 then .ok 7 else .exc i }
    let s := run cfg [.start 0, .start 1, .start 2, .finish 0, .next, .finish 1, .next, .cancel 2 (.base 5)]
    s.got = [(0, 7)] ∧ final cfg s = some (.raised [(1, .exc 1), (2, .base 5)]) := by decide

end Verif.StreamFail
