import Verif.Props.LazyInit

/-!
# C331: first calls from several threads can always end
-/

set_option linter.unusedSimpArgs false
set_option linter.unusedVariables false

namespace Verif.LazyInit

/-- Inside the `with` block. -/
def Hold : PC → Prop
  | .test2 => True
  | .fill _ => True
  | .release => True
  | _ => False

/-- The owner of the lock is inside the block; without a lock nobody waits for it. -/
structure Own (c : Cfg) (s : Sys) : Prop where
  hold : ∀ u, s.owner = some u → Hold (s.pc u)
  free : c.locked = false → s.owner = none ∧ ∀ u, s.pc u ≠ .lock

/-- What one step of `t` does to the owner and to the thread itself. -/
theorem Own.move {c : Cfg} {s s' : Sys} (h : Own c s) (t : Nat) (hpc : ∀ u, u ≠ t → s'.pc u = s.pc u) (ho : s'.owner = s.owner) (hh : c.locked = true → Hold (s.pc t) → Hold (s'.pc t))
    (hl : c.locked = false → s'.pc t ≠ .lock) : Own c s' where
  hold := by
    intro u hu
    rw [ho] at hu
    by_cases e : u = t
    · subst e
      cases hc : c.locked with
      | true => exact hh hc (h.hold u hu)
      | false => rw [(h.free hc).1] at hu; cases hu
    · rw [hpc u e]; exact h.hold u hu
  free := by
    intro hc
    refine ⟨by rw [ho]; exact (h.free hc).1, fun u => ?_⟩
    by_cases e : u = t
    · subst e; exact hl hc
    · rw [hpc u e]; exact (h.free hc).2 u

theorem Own.goto {c : Cfg} {s : Sys} (h : Own c s) (t : Nat) (p : PC) (hh : c.locked = true → Hold (s.pc t) → Hold p) (hl : c.locked = false → p ≠ .lock) : Own c (goto s t p) :=
  h.move t (fun u hu => by simp [LazyInit.goto, upd_ne _ _ hu]) rfl (by simp only [LazyInit.goto, upd_self]; exact hh) (by simp only [LazyInit.goto, upd_self]; exact hl)

theorem Own.step {c : Cfg} {s : Sys} (hi : Inv c s) (h : Own c s) (t : Nat) : Own c (step c s t) := by
  have ht := hi.fine t
  simp only [LazyInit.step]
  cases hpc : s.pc t with
  | test =>
    dsimp only
    by_cases h1 : s.flag = true
    · rw [if_pos h1]; exact h.goto t _ (fun _ x => by rw [hpc] at x; exact x.elim) (fun _ e => by cases e)
    · rw [if_neg h1]
      by_cases h2 : c.locked = true
      · rw [if_pos h2]; exact h.goto t _ (fun _ x => by rw [hpc] at x; exact x.elim) (fun e => by rw [h2] at e; cases e)
      · rw [if_neg h2]; exact h.goto t _ (fun e => absurd e h2) (fun _ e => by cases e)
  | lock =>
    dsimp only
    by_cases h1 : s.owner = none
    · rw [if_pos h1]
      refine ⟨fun u hu => ?_, fun hc => absurd hpc ((h.free hc).2 t)⟩
      simp only [Option.some.injEq] at hu
      subst hu
      simp only [upd_self]; trivial
    · rw [if_neg h1]; exact h
  | test2 =>
    dsimp only
    by_cases h1 : s.flag = true
    · rw [if_pos h1]; exact h.goto t _ (fun _ _ => trivial) (fun _ e => by cases e)
    · rw [if_neg h1]; exact h.goto t _ (fun _ _ => trivial) (fun _ e => by cases e)
  | fill k =>
    rw [hpc] at ht
    dsimp only
    by_cases h1 : k < c.tables
    · rw [if_pos h1]
      have hr : readyTo s k = true := (readyTo_iff s k).mpr ht.2
      simp only [fill, hr, if_true]
      exact h.move t (fun u hu => by simp [upd_ne _ _ hu]) rfl (fun _ _ => by simp only [upd_self]; trivial) (fun _ e => by simp only [upd_self] at e; cases e)
    · rw [if_neg h1]
      unfold setFlag
      refine h.move t (fun u hu => by simp [upd_ne _ _ hu]) rfl (fun hc _ => ?_) (fun hc e => ?_)
      · simp only [upd_self, hc, if_true]; trivial
      · simp [upd_self, hc] at e
  | release =>
    refine ⟨fun u hu => (by cases hu), fun hc => ⟨rfl, fun u => ?_⟩⟩
    by_cases e : u = t
    · subst e; simp only [upd_self]; intro x; cases x
    · simp only [upd_ne _ _ e]; exact (h.free hc).2 u
  | body =>
    dsimp only
    by_cases h1 : readyTo s c.tables = true
    · rw [if_pos h1]; exact h.goto t _ (fun _ x => by rw [hpc] at x; exact x.elim) (fun _ e => by cases e)
    · rw [if_neg h1]; exact h.goto t _ (fun _ x => by rw [hpc] at x; exact x.elim) (fun _ e => by cases e)
  | done => exact h
  | failed => exact h

/-- How many steps a thread still has to take when nobody is in its way. -/
def rank (c : Cfg) : PC → Nat
  | .test => c.tables + 6
  | .lock => c.tables + 5
  | .test2 => c.tables + 4
  | .fill k => (c.tables - k) + 3
  | .release => 2
  | .body => 1
  | .done => 0
  | .failed => 0

/-- The thread does not wait for a lock that is held. -/
def Unhindered (s : Sys) (t : Nat) : Prop := s.pc t = .test ∨ s.pc t = .lock → s.owner = none

theorem step_rank {c : Cfg} {s : Sys} (hi : Inv c s) (t : Nat) (hu : Unhindered s t) (hd : s.pc t ≠ .done) :
    rank c ((step c s t).pc t) < rank c (s.pc t) ∧ Unhindered (step c s t) t ∧ ((step c s t).owner = s.owner ∨ (step c s t).owner = some t ∨ (step c s t).owner = none) := by
  have ht := hi.fine t
  simp only [LazyInit.step, Unhindered] at *
  cases hpc : s.pc t with
  | test =>
    rw [hpc] at hu
    have ho := hu (.inl rfl)
    dsimp only
    by_cases h1 : s.flag = true
    · rw [if_pos h1]; simp [goto, upd_self, rank]
    · rw [if_neg h1]
      by_cases h2 : c.locked = true
      · rw [if_pos h2]; simp [goto, upd_self, rank, ho]
      · rw [if_neg h2]; simp [goto, upd_self, rank]
  | lock =>
    rw [hpc] at hu
    have ho := hu (.inr rfl)
    dsimp only
    rw [if_pos ho]; simp [upd_self, rank]
  | test2 =>
    dsimp only
    by_cases h1 : s.flag = true
    · rw [if_pos h1]; simp [goto, upd_self, rank]
    · rw [if_neg h1]; simp [goto, upd_self, rank]
  | fill k =>
    rw [hpc] at ht
    dsimp only
    by_cases h1 : k < c.tables
    · rw [if_pos h1]
      have hr : readyTo s k = true := (readyTo_iff s k).mpr ht.2
      simp only [fill, hr, if_true, upd_self, rank]
      refine ⟨by omega, by simp, by simp⟩
    · rw [if_neg h1]
      unfold setFlag
      cases c.locked <;> simp [upd_self, rank] <;> omega
  | release => simp [upd_self, rank]
  | body =>
    rw [hpc] at ht
    have hr : readyTo s c.tables = true := (readyTo_iff s c.tables).mpr ht
    simp [hr, goto, upd_self, rank]
  | done => exact absurd hpc hd
  | failed => rw [hpc] at ht; exact ht.elim

/-- A thread in nobody's way ends when it runs alone; the lock is then free or held by the thread that held it. -/
theorem solo {c : Cfg} (t : Nat) : ∀ (n : Nat) (s : Sys), Inv c s → Own c s → Unhindered s t → rank c (s.pc t) ≤ n →
    ∃ m, m ≤ n ∧ ((List.replicate m t).foldl (step c) s).pc t = .done ∧ Inv c ((List.replicate m t).foldl (step c) s) ∧ Own c ((List.replicate m t).foldl (step c) s) ∧
      (((List.replicate m t).foldl (step c) s).owner = s.owner ∨ ((List.replicate m t).foldl (step c) s).owner = some t ∨ ((List.replicate m t).foldl (step c) s).owner = none)
  | n, s, hi, ho, hu, hr => by
    by_cases hd : s.pc t = .done
    · exact ⟨0, Nat.zero_le _, hd, hi, ho, .inl rfl⟩
    · obtain ⟨h1, h2, h3⟩ := step_rank hi t hu hd
      match n with
      | 0 => omega
      | n + 1 =>
        obtain ⟨m, hm, a, b, d, e⟩ := solo t n (step c s t) (hi.step t) (Own.step hi ho t) h2 (by omega)
        refine ⟨m + 1, by omega, a, b, d, ?_⟩
        show ((List.replicate m t).foldl (step c) (step c s t)).owner = _ ∨ _
        rcases e with e | e
        · rw [show (List.replicate (m + 1) t).foldl (step c) s = (List.replicate m t).foldl (step c) (step c s t) from rfl, e]; exact h3
        · exact .inr e

theorem Own.run (c : Cfg) (ts : List Nat) : Own c (run c ts) :=
  (foldl_inv (P := fun s => Inv c s ∧ Own c s) _ (fun s t h => ⟨h.1.step t, Own.step h.1 h.2 t⟩) ts {}
    ⟨Inv.init c, ⟨fun u hu => (by cases hu), fun _ => ⟨rfl, fun u e => by cases e⟩⟩⟩).2

theorem rank_le (c : Cfg) (p : PC) : rank c p ≤ c.tables + 6 := by
  cases p <;> simp [rank] <;> omega

/-- **C331.**  After any history of first calls no thread is stuck: every thread's call ends after at most `tables + 6` steps of the thread that holds the lock, if one does, followed by at most `tables + 6` of its own. -/
theorem C331_ends (c : Cfg) (ts : List Nat) (t : Nat) : ∃ u a b, a ≤ c.tables + 6 ∧ b ≤ c.tables + 6 ∧ (a = 0 ∨ (run c ts).owner = some u) ∧
    (run c (ts ++ List.replicate a u ++ List.replicate b t)).pc t = .done := by
  have hi := Inv.run c ts
  have ho := Own.run c ts
  cases hx : (run c ts).owner with
  | none =>
    obtain ⟨m, hm, h, _⟩ := solo t (c.tables + 6) _ hi ho (fun _ => hx) (rank_le c _)
    refine ⟨t, 0, m, Nat.zero_le _, hm, .inl rfl, ?_⟩
    simp only [List.replicate, List.append_nil]
    rw [LazyInit.run, List.foldl_append]
    exact h
  | some u =>
    have hu : Unhindered (run c ts) u := by
      intro e
      have := ho.hold u hx
      rcases e with e | e <;> rw [e] at this <;> exact this.elim
    obtain ⟨a, ha, hd, hi', ho', hw⟩ := solo u (c.tables + 6) _ hi ho hu (rank_le c _)
    have hfree : ((List.replicate a u).foldl (LazyInit.step c) (run c ts)).owner = none := by
      rw [hx] at hw
      rcases hw with hw | hw | hw
      · have := ho'.hold u hw; rw [hd] at this; exact this.elim
      · have := ho'.hold u hw; rw [hd] at this; exact this.elim
      · exact hw
    obtain ⟨b, hb, h, _⟩ := solo t (c.tables + 6) _ hi' ho' (fun _ => hfree) (rank_le c _)
    refine ⟨u, a, b, ha, hb, .inr rfl, ?_⟩
    rw [LazyInit.run, List.foldl_append, List.foldl_append]
    exact h

/-- Thread 0 holds the lock, thread 1 waits for it. -/
example : (run ⟨2, true⟩ [0, 1, 0, 1]).owner = some 0 ∧ (run ⟨2, true⟩ [0, 1, 0, 1]).pc 1 = .lock ∧ (run ⟨2, true⟩ ([0, 1, 0, 1] ++ List.replicate 6 0 ++ List.replicate 4 1)).pc 1 = .done := by decide

end Verif.LazyInit
