import Verif.Model.LazyInit

/-!
# First calls from several threads (C300)
-/

set_option linter.unusedSimpArgs false
set_option linter.unusedVariables false

namespace Verif.LazyInit

theorem upd_self {α : Type} (f : Nat → α) (i : Nat) (v : α) : upd f i v i = v := by simp [upd]

theorem upd_ne {α : Type} (f : Nat → α) (v : α) {i j : Nat} (h : j ≠ i) : upd f i v j = f j := by simp [upd, h]

theorem readyTo_iff (s : Sys) (k : Nat) : readyTo s k = true ↔ ∀ j, j < k → s.ready j = true := by
  simp [readyTo, List.all_eq_true]

/-- The tables a thread at this point may rely on, and that it has not failed. -/
def Fine (c : Cfg) (s : Sys) : PC → Prop
  | .fill k => k ≤ c.tables ∧ ∀ j, j < k → s.ready j = true
  | .release => ∀ j, j < c.tables → s.ready j = true
  | .body => ∀ j, j < c.tables → s.ready j = true
  | .done => ∀ j, j < c.tables → s.ready j = true
  | .failed => False
  | _ => True

structure Inv (c : Cfg) (s : Sys) : Prop where
  flag : s.flag = true → ∀ j, j < c.tables → s.ready j = true
  fine : ∀ t, Fine c s (s.pc t)

theorem Fine.mono {c : Cfg} {s s' : Sys} (h : ∀ j, s.ready j = true → s'.ready j = true) {p : PC} (hp : Fine c s p) : Fine c s' p := by
  cases p with
  | fill k => exact ⟨hp.1, fun j hj => h j (hp.2 j hj)⟩
  | release => exact fun j hj => h j (hp j hj)
  | body => exact fun j hj => h j (hp j hj)
  | done => exact fun j hj => h j (hp j hj)
  | failed => exact hp.elim
  | _ => trivial

/-- A step that changes the thread `t` only and loses no table. -/
theorem Inv.move {c : Cfg} {s s' : Sys} (h : Inv c s) (t : Nat) (hr : ∀ j, s.ready j = true → s'.ready j = true)
    (hpc : ∀ u, u ≠ t → s'.pc u = s.pc u) (hf : s'.flag = true → ∀ j, j < c.tables → s'.ready j = true) (ht : Fine c s' (s'.pc t)) : Inv c s' where
  flag := hf
  fine := by
    intro u
    by_cases hu : u = t
    · subst hu; exact ht
    · rw [hpc u hu]; exact (h.fine u).mono hr

theorem Inv.goto {c : Cfg} {s : Sys} (h : Inv c s) (t : Nat) (p : PC) (hp : Fine c s p) : Inv c (goto s t p) :=
  h.move t (fun _ hj => hj) (fun u hu => by simp [LazyInit.goto, upd_ne _ _ hu]) h.flag
    (by simp only [LazyInit.goto, upd_self]; exact hp.mono (fun _ hj => hj))

theorem Inv.step {c : Cfg} {s : Sys} (h : Inv c s) (t : Nat) : Inv c (step c s t) := by
  have ht := h.fine t
  simp only [LazyInit.step]
  cases hpc : s.pc t with
  | test =>
    dsimp only
    split
    · rename_i hf; exact h.goto t _ (h.flag hf)
    · split
      · exact h.goto t _ trivial
      · exact h.goto t _ ⟨Nat.zero_le _, fun j hj => absurd hj (Nat.not_lt_zero j)⟩
  | lock =>
    dsimp only
    split
    · exact h.move t (fun _ hj => hj) (fun u hu => by simp [upd_ne _ _ hu]) h.flag (by simp [upd_self, Fine])
    · exact h
  | test2 =>
    dsimp only
    split
    · rename_i hf; exact h.goto t _ (h.flag hf)
    · exact h.goto t _ ⟨Nat.zero_le _, fun j hj => absurd hj (Nat.not_lt_zero j)⟩
  | fill k =>
    rw [hpc] at ht
    dsimp only
    split
    · rename_i hk
      have hr : readyTo s k = true := (readyTo_iff s k).mpr ht.2
      simp only [fill, hr, if_true]
      have mono : ∀ j, s.ready j = true → upd s.ready k true j = true := by
        intro j hj
        by_cases e : j = k
        · subst e; rw [upd_self]
        · rw [upd_ne _ _ e]; exact hj
      refine h.move t mono (fun u hu => by simp [upd_ne _ _ hu]) (fun hf j hj => mono j (h.flag hf j hj)) ?_
      simp only [upd_self, Fine]
      refine ⟨hk, fun j hj => ?_⟩
      by_cases e : j = k
      · subst e; rw [upd_self]
      · rw [upd_ne _ _ e]; exact ht.2 j (by omega)
    · rename_i hk
      have hall : ∀ j, j < c.tables → s.ready j = true := fun j hj => ht.2 j (by omega)
      refine h.move t (fun _ hj => hj) (fun u hu => by simp [setFlag, upd_ne _ _ hu]) (fun _ => hall) ?_
      simp only [setFlag, upd_self]
      split
      · exact hall
      · exact hall
  | release =>
    rw [hpc] at ht
    exact h.move t (fun _ hj => hj) (fun u hu => by simp [upd_ne _ _ hu]) h.flag (by simp only [upd_self]; exact ht)
  | body =>
    rw [hpc] at ht
    have hr : readyTo s c.tables = true := (readyTo_iff s c.tables).mpr ht
    simp only [hr, if_true]
    exact h.goto t _ ht
  | done => exact h
  | failed => exact h

theorem Inv.init (c : Cfg) : Inv c {} := ⟨fun h => by simp at h, fun t => trivial⟩

theorem foldl_inv {P : Sys → Prop} (f : Sys → Nat → Sys) (hf : ∀ s t, P s → P (f s t)) (ts : List Nat) : ∀ s, P s → P (ts.foldl f s) := by
  induction ts with
  | nil => intro s h; exact h
  | cons t ts ih => intro s h; exact ih _ (hf s t h)

theorem Inv.run (c : Cfg) (ts : List Nat) : Inv c (run c ts) := foldl_inv _ (fun s t h => h.step t) ts {} (Inv.init c)

/-- C300: however the first calls of any number of threads interleave, no thread ever reads a table that is not set, and a thread that has come to the body of the
function finds all tables set. -/
theorem C300_safe (c : Cfg) (ts : List Nat) (t : Nat) :
    (run c ts).pc t ≠ .failed ∧
    ((run c ts).pc t = .body ∨ (run c ts).pc t = .done → ∀ j, j < c.tables → (run c ts).ready j = true) := by
  have h := (Inv.run c ts).fine t
  refine ⟨fun e => by rw [e] at h; exact h, ?_⟩
  rintro (e | e) <;> rw [e] at h <;> exact h

/-! ### With the lock each table is filled once -/

/-- Threads at these points hold the lock. -/
def holding : PC → Bool
  | .test2 => true
  | .fill _ => true
  | .release => true
  | _ => false

/-- How often table `j` has been filled while a thread holding the lock is at this point. -/
def filledAt (c : Cfg) (flag : Bool) (j : Nat) : PC → Nat
  | .fill k => if j < k then 1 else 0
  | _ => if flag then 1 else 0

structure Once (c : Cfg) (s : Sys) : Prop where
  own : ∀ t, holding (s.pc t) = true ↔ s.owner = some t
  none : s.owner = none → ∀ j, j < c.tables → s.fills j = if s.flag then 1 else 0
  some : ∀ t, s.owner = some t → ∀ j, j < c.tables → s.fills j = filledAt c s.flag j (s.pc t)
  filling : ∀ t k, s.pc t = .fill k → s.flag = false
  over : ∀ j, c.tables ≤ j → s.fills j = 0

theorem Once.step {c : Cfg} (hl : c.locked = true) {s : Sys} (hi : Inv c s) (h : Once c s) (t : Nat) : Once c (step c s t) := by
  have hown := h.own t
  have uniq : ∀ u, u ≠ t → s.owner = Option.some t → holding (s.pc u) = false := by
    intro u hu ho
    cases hx : holding (s.pc u) with
    | false => rfl
    | true => have := (h.own u).mp hx; rw [ho] at this; cases this; exact absurd rfl hu
  -- a step between points outside the lock
  have out : ∀ p, holding p = false → (∀ k, p ≠ .fill k) → holding (s.pc t) = false → Once c (goto s t p) := by
    intro p hp hpf hh
    have hno : s.owner ≠ Option.some t := fun e => by rw [hown.mpr e] at hh; cases hh
    refine ⟨fun u => ?_, h.none, fun u hu j hj => ?_, fun u k hu => ?_, h.over⟩
    · by_cases hu : u = t
      · subst hu
        simp only [goto, upd_self, hp]
        exact ⟨fun e => (by cases e), fun e => absurd e hno⟩
      · simp only [goto, upd_ne _ _ hu]; exact h.own u
    · have : u ≠ t := by rintro rfl; exact hno hu
      simp only [goto, upd_ne _ _ this]; exact h.some u hu j hj
    · by_cases hx : u = t
      · subst hx; simp only [goto, upd_self] at hu; exact absurd hu (hpf k)
      · simp only [goto, upd_ne _ _ hx] at hu; exact h.filling u k hu
  -- a step between points inside the lock
  have inn : ∀ p, holding p = true → s.owner = Option.some t → (∀ j, j < c.tables → s.fills j = filledAt c s.flag j p) →
      (∀ k, p = .fill k → s.flag = false) → Once c (goto s t p) := by
    intro p hp ho hf hk
    refine ⟨fun u => ?_, fun hn => ?_, fun u hu j hj => ?_, fun u k hu => ?_, h.over⟩
    · by_cases hu : u = t
      · subst hu
        simp only [goto, upd_self, hp]
        exact ⟨fun _ => ho, fun _ => trivial⟩
      · simp only [goto, upd_ne _ _ hu]; exact h.own u
    · simp only [goto] at hn; rw [ho] at hn; cases hn
    · simp only [goto] at hu ⊢
      rw [ho] at hu; cases hu
      rw [upd_self]; exact hf j hj
    · by_cases hx : u = t
      · subst hx; simp only [goto, upd_self] at hu; exact hk k hu
      · simp only [goto, upd_ne _ _ hx] at hu; exact h.filling u k hu
  simp only [LazyInit.step, hl, if_true]
  cases hpc : s.pc t with
  | test =>
    rw [hpc] at out
    dsimp only
    split
    · exact out _ rfl (fun k e => by cases e) rfl
    · exact out _ rfl (fun k e => by cases e) rfl
  | lock =>
    dsimp only
    split
    · rename_i hn
      refine ⟨fun u => ?_, fun e => (by cases e), fun u hu j hj => ?_, fun u k hu => ?_, h.over⟩
      · dsimp only
        by_cases hu : u = t
        · subst hu; simp [upd_self, holding]
        · rw [upd_ne _ _ hu]
          constructor
          · intro e; have := (h.own u).mp e; rw [hn] at this; cases this
          · intro e; cases e; exact absurd rfl hu
      · cases hu
        dsimp only; rw [upd_self]; exact h.none hn j hj
      · dsimp only at hu ⊢
        by_cases hx : u = t
        · subst hx; rw [upd_self] at hu; cases hu
        · rw [upd_ne _ _ hx] at hu; exact h.filling u k hu
    · exact h
  | test2 =>
    rw [hpc] at hown
    have ho := hown.mp rfl
    have hs := h.some t ho
    rw [hpc] at hs
    dsimp only
    split
    · rename_i hf
      exact inn _ rfl ho (fun j hj => by rw [hs j hj]; rfl) (fun k e => by cases e)
    · rename_i hf
      have hf' : s.flag = false := by simpa using hf
      exact inn _ rfl ho (fun j hj => by rw [hs j hj]; simp [filledAt, hf']) (fun _ _ => hf')
  | fill k =>
    have hfl := h.filling t k hpc
    rw [hpc] at hown
    have ho := hown.mp rfl
    have hs := h.some t ho
    have ht := hi.fine t
    rw [hpc] at hs ht
    have others : ∀ u k', u ≠ t → s.pc u ≠ .fill k' := by
      intro u k' hu e
      have := uniq u hu ho
      rw [e] at this; cases this
    dsimp only
    split
    · rename_i hk
      have hr : readyTo s k = true := (readyTo_iff s k).mpr ht.2
      simp only [fill, hr, if_true]
      refine ⟨fun u => ?_, fun hn => ?_, fun u hu j hj => ?_, fun u k' hu => ?_, fun j hj => ?_⟩
      · dsimp only
        by_cases hu : u = t
        · subst hu; simp [upd_self, holding, ho]
        · rw [upd_ne _ _ hu]; exact h.own u
      · dsimp only at hn; rw [ho] at hn; cases hn
      · dsimp only at hu ⊢
        rw [ho] at hu; cases hu
        rw [upd_self]
        simp only [filledAt]
        by_cases e : j = k
        · subst e
          rw [upd_self, hs j hj]
          simp [filledAt]
        · rw [upd_ne _ _ e, hs j hj]
          simp only [filledAt]
          by_cases hjk : j < k
          · rw [if_pos hjk, if_pos (by omega)]
          · rw [if_neg hjk, if_neg (by omega)]
      · exact hfl
      · dsimp only
        rw [upd_ne _ _ (by omega)]; exact h.over j hj
    · rename_i hk
      have hke : k = c.tables := by have := ht.1; omega
      simp only [setFlag, hl, if_true]
      refine ⟨fun u => ?_, fun hn => ?_, fun u hu j hj => ?_, fun u k' hu => ?_, h.over⟩
      · dsimp only
        by_cases hu : u = t
        · subst hu; simp [upd_self, holding, ho]
        · rw [upd_ne _ _ hu]; exact h.own u
      · dsimp only at hn; rw [ho] at hn; cases hn
      · dsimp only at hu ⊢
        rw [ho] at hu; cases hu
        rw [upd_self, hs j hj]
        simp only [filledAt, if_true]
        rw [if_pos (by omega)]
      · dsimp only at hu
        by_cases hx : u = t
        · subst hx; rw [upd_self] at hu; cases hu
        · rw [upd_ne _ _ hx] at hu; exact absurd hu (others u k' hx)
  | release =>
    rw [hpc] at hown
    have ho := hown.mp rfl
    have hs := h.some t ho
    rw [hpc] at hs
    refine ⟨fun u => ?_, fun _ j hj => ?_, fun u hu => (by cases hu), fun u k' hu => ?_, h.over⟩
    · dsimp only
      by_cases hu : u = t
      · subst hu; simp [upd_self, holding]
      · rw [upd_ne _ _ hu, uniq u hu ho]; simp
    · dsimp only; rw [hs j hj]; rfl
    · dsimp only at hu
      by_cases hx : u = t
      · subst hx; rw [upd_self] at hu; cases hu
      · rw [upd_ne _ _ hx] at hu; exact h.filling u k' hu
  | body =>
    have ht := hi.fine t
    rw [hpc] at ht out
    have hr : readyTo s c.tables = true := (readyTo_iff s c.tables).mpr ht
    simp only [hr, if_true]
    exact out _ rfl (fun k e => by cases e) rfl
  | done => exact h
  | failed => exact h

/-- C300, with the lock: however the first calls interleave, no table is filled twice, and exactly once by the time some thread has come to the body of the function. -/
theorem C300_once (c : Cfg) (hl : c.locked = true) (ts : List Nat) (j : Nat) :
    (run c ts).fills j ≤ 1 ∧ ((∃ t, (run c ts).pc t = .body ∨ (run c ts).pc t = .done) → j < c.tables → (run c ts).fills j = 1) := by
  have key : ∀ (ts : List Nat) (s : Sys), Inv c s ∧ Once c s ∧ ((∃ t, s.pc t = .body ∨ s.pc t = .done ∨ s.pc t = .release) → s.flag = true) →
      (Inv c (ts.foldl (step c) s) ∧ Once c (ts.foldl (step c) s) ∧
        ((∃ t, (ts.foldl (step c) s).pc t = .body ∨ (ts.foldl (step c) s).pc t = .done ∨ (ts.foldl (step c) s).pc t = .release) →
          (ts.foldl (step c) s).flag = true)) := by
    intro ts
    induction ts with
    | nil => intro s h; exact h
    | cons t ts ih =>
      intro s h
      refine ih _ ⟨h.1.step t, h.2.1.step hl h.1 t, ?_⟩
      have grow : s.flag = true → (step c s t).flag = true := by
        intro hf
        simp only [step]
        cases s.pc t <;> dsimp only <;> (try split) <;> (try split) <;> (try simp [goto, setFlag, fill, hf]) <;> (try split) <;> simp [goto, hf]
      have others : ∀ u, u ≠ t → (step c s t).pc u = s.pc u := by
        intro u hu
        simp only [step]
        cases s.pc t <;> dsimp only <;> (try split) <;> (try split) <;> (try simp [goto, setFlag, fill, upd_ne _ _ hu]) <;> (try split) <;>
          simp [goto, upd_ne _ _ hu]
      rintro ⟨u, hu⟩
      by_cases hx : u = t
      · subst hx
        simp only [step] at hu ⊢
        cases hpc : s.pc u with
        | test =>
          rw [hpc] at hu
          dsimp only at hu ⊢
          by_cases hf : s.flag = true
          · simp [hf, goto]
          · simp [hf, hl, goto, upd_self] at hu
        | lock =>
          rw [hpc] at hu
          dsimp only at hu ⊢
          by_cases ho : s.owner = none
          · simp [ho, upd_self] at hu
          · simp [ho, hpc] at hu
        | test2 =>
          rw [hpc] at hu
          dsimp only at hu ⊢
          by_cases hf : s.flag = true
          · simp [hf, goto]
          · simp [hf, goto, upd_self] at hu
        | fill k =>
          rw [hpc] at hu
          dsimp only at hu ⊢
          by_cases hk : k < c.tables
          · simp only [hk, if_true, fill] at hu
            split at hu <;> simp [goto, upd_self] at hu
          · simp [hk, setFlag]
        | release => exact h.2.2 ⟨u, .inr (.inr hpc)⟩
        | body =>
          dsimp only
          have := h.2.2 ⟨u, .inl hpc⟩
          split <;> simp [goto, this]
        | done => exact h.2.2 ⟨u, .inr (.inl hpc)⟩
        | failed =>
          rw [hpc] at hu
          dsimp only at hu
          simp [hpc] at hu
      · rw [others u hx] at hu
        exact grow (h.2.2 ⟨u, hu⟩)
  have h0 : Inv c {} ∧ Once c {} ∧ ((∃ t, ({} : Sys).pc t = .body ∨ ({} : Sys).pc t = .done ∨ ({} : Sys).pc t = .release) → ({} : Sys).flag = true) := by
    refine ⟨Inv.init c, ⟨fun t => by simp [holding], fun _ j _ => rfl, fun t e => (by cases e), fun t k e => (by cases e), fun j _ => rfl⟩, ?_⟩
    rintro ⟨t, e | e | e⟩ <;> cases e
  have hrun := key ts {} h0
  change Inv c (run c ts) ∧ Once c (run c ts) ∧
    ((∃ t, (run c ts).pc t = .body ∨ (run c ts).pc t = .done ∨ (run c ts).pc t = .release) → (run c ts).flag = true) at hrun
  obtain ⟨h1, h2, h3⟩ := hrun
  have hle : ∀ j p b, filledAt c b j p ≤ 1 := by
    intro j p b
    cases p <;> simp only [filledAt] <;> split <;> omega
  have hle1 : ∀ j, (run c ts).fills j ≤ 1 := by
    intro j
    by_cases hj : j < c.tables
    · cases ho : (run c ts).owner with
      | none => rw [h2.none ho j hj]; split <;> omega
      | some t => rw [h2.some t ho j hj]; exact hle _ _ _
    · have := h2.over j (by omega)
      have e : (run c ts).fills j = 0 := this
      omega
  refine ⟨hle1 j, ?_⟩
  rintro ⟨t, ht⟩ hj
  have hf : (run c ts).flag = true := h3 ⟨t, by rcases ht with e | e; exact .inl e; exact .inr (.inl e)⟩
  cases ho : (run c ts).owner with
  | none => rw [h2.none ho j hj, hf]; rfl
  | some u =>
    rw [h2.some u ho j hj]
    cases hp : (run c ts).pc u with
    | fill k => rw [h2.filling u k hp] at hf; cases hf
    | _ => simp [filledAt, hf]

/-- Without the lock a table may be filled more than once (with the same value): two threads in their first call. -/
theorem C300_refill_limit : (run ⟨1, false⟩ [0, 1, 0, 1]).fills 0 = 2 := by decide

/-- Two threads, one waiting for the lock until the other has finished. -/
example : (run ⟨1, true⟩ [0, 1, 0, 1, 0, 0, 0, 0, 0, 1, 1, 1, 1]).pc 0 = .done ∧ (run ⟨1, true⟩ [0, 1, 0, 1, 0, 0, 0, 0, 0, 1, 1, 1, 1]).pc 1 = .done := by decide

end Verif.LazyInit
