import Verif.Lemmas.Sync
import Verif.Spec.Serial

/-! # Synchronized methods are linearizable -/

set_option linter.unusedSectionVars false
set_option linter.unusedVariables false
set_option linter.unusedSimpArgs false

namespace Verif.Sync

variable {C σ α : Type}

open Serial

/-- Where a thread is: between calls, waiting to enter call `p`, inside call `p` with `q` left and the locks `h` above the object's lock, or
past the end of a call with result `a`. -/
inductive Ph (C σ α : Type) where
  | idle
  | waiting (c : C)
  | inside (c : C) (q : Prog σ α) (h : List Nat)
  | fin (a : α)

def Ph.cur (body : C → Prog σ α) (g : Nat) : Ph C σ α → Option (Prog σ α)
  | .idle => none
  | .waiting c => some (withLock g (body c))
  | .inside _ q _ => some (q.bind (leave g))
  | .fin a => some (.ret a)

def Ph.held (g : Nat) : Ph C σ α → List Nat
  | .inside _ _ h => h ++ [g]
  | _ => []

def Ph.pending : Ph C σ α → List C
  | .waiting p => [p]
  | .inside p _ _ => [p]
  | _ => []

def Ph.extra : Ph C σ α → List α
  | .fin a => [a]
  | _ => []

def Ph.isInside : Ph C σ α → Prop
  | .inside _ _ _ => True
  | _ => False

def setPh (ph : Nat → Ph C σ α) (t : Nat) (x : Ph C σ α) : Nat → Ph C σ α := fun u => if u = t then x else ph u

theorem held_setPh (g : Nat) (ph : Nat → Ph C σ α) (t : Nat) (x : Ph C σ α) :
    (fun u => (setPh ph t x u).held g) = setHeld (fun u => (ph u).held g) t (x.held g) := by
  funext u
  by_cases e : u = t
  · simp [setPh, setHeld, e]
  · simp [setPh, setHeld, e]

theorem callsOf_append (t : Nat) (l : List (Nat × C)) (u : Nat) (p : C) :
    callsOf t (l ++ [(u, p)]) = callsOf t l ++ (if u = t then [p] else []) := by
  by_cases e : u = t
  · simp [callsOf, e]
  · simp [callsOf, e]

theorem state_append (f : C → σ → σ × α) (s0 : σ) (l : List (Nat × C)) (u : Nat) (p : C) :
    state f s0 (l ++ [(u, p)]) = (f p (state f s0 l)).1 := by
  simp [state]

theorem results_append (f : C → σ → σ × α) (t u : Nat) (p : C) :
    ∀ (l : List (Nat × C)) (s0 : σ),
      results f t s0 (l ++ [(u, p)]) = results f t s0 l ++ (if u = t then [(f p (state f s0 l)).2] else [])
  | [], s0 => by simp [results, state]
  | (v, q) :: l, s0 => by
    simp only [List.cons_append, results, results_append f t u p l, List.append_assoc]
    simp [state]

/-- The invariant: `log` is the order in which calls left the object's lock. -/
structure Lin (body : C → Prog σ α) (g B : Nat) (calls : Nat → List C) (s0 : σ) (m : State σ α) (log : List (Nat × C))
    (ph : Nat → Ph C σ α) : Prop where
  cur : ∀ t, (m.threads t).cur = (ph t).cur body g
  locks : LocksAgree m (fun t => (ph t).held g)
  nest : ∀ t p q h, ph t = .inside p q h → Nested B [g] h q
  acct : ∀ t, ∃ rest, (m.threads t).todo = rest.map (fun c => withLock g (body c)) ∧ calls t = callsOf t log ++ (ph t).pending ++ rest
  res : ∀ t, results (fun c => exec (body c)) t s0 log = (m.threads t).out ++ (ph t).extra
  busy : ∀ t p q h, ph t = .inside p q h → exec q m.shared = exec (body p) (state (fun c => exec (body c)) s0 log)
  free : (∀ t, ¬ (ph t).isInside) → m.shared = state (fun c => exec (body c)) s0 log

theorem Lin.unique {body : C → Prog σ α} {g B : Nat} {calls : Nat → List C} {s0 : σ} {m : State σ α} {log : List (Nat × C)}
    {ph : Nat → Ph C σ α} (hm : Lin body g B calls s0 m log ph) {t u : Nat} (ht : (ph t).isInside) (hu : (ph u).isInside) : t = u := by
  have key : ∀ v, (ph v).isInside → 0 < depth (m.locks g) v := by
    intro v hv
    rw [← hm.locks.2 v g]
    cases e : ph v with
    | inside p q h => simp [e, Ph.held]
    | _ => rw [e] at hv; exact hv.elim
  exact depth_unique (key t ht) (key u hu)

theorem Lin.init {body : C → Prog σ α} {g B : Nat} {calls : Nat → List C} {s0 : σ} :
    Lin body g B calls s0 (init s0 (fun t => (calls t).map (fun c => withLock g (body c)))) [] (fun _ => .idle) where
  cur := fun _ => rfl
  locks := ⟨by intro l o n e; simp [Sync.init] at e, by intro t l; simp [Sync.init, depth, Ph.held]⟩
  nest := by intro t p q h e; cases e
  acct := fun t => ⟨calls t, rfl, rfl⟩
  res := fun t => rfl
  busy := by intro t p q h e; cases e
  free := fun _ => rfl

/-- Rebuild the invariant after thread `t` has moved to phase `x`. -/
theorem Lin.upd {body : C → Prog σ α} {g B : Nat} {calls : Nat → List C} {s0 : σ} {m : State σ α} {log log' : List (Nat × C)}
    {ph : Nat → Ph C σ α} (hm : Lin body g B calls s0 m log ph) {t : Nat} {th : Thread σ α} {m1 : State σ α} {x : Ph C σ α}
    (h1 : m1.threads = m.threads) (hl : LocksAgree (m1.setThread t th) (setHeld (fun u => (ph u).held g) t (x.held g)))
    (hc : th.cur = x.cur body g) (hn : ∀ p q h, x = .inside p q h → Nested B [g] h q)
    (hlog : log' = log ∨ ∃ p, log' = log ++ [(t, p)])
    (ha : ∃ rest, th.todo = rest.map (fun c => withLock g (body c)) ∧ calls t = callsOf t log' ++ x.pending ++ rest)
    (hr : results (fun c => exec (body c)) t s0 log' = th.out ++ x.extra)
    (hb : ∀ p q h, x = .inside p q h → exec q m1.shared = exec (body p) (state (fun c => exec (body c)) s0 log'))
    (ho : ∀ u, u ≠ t → (ph u).isInside → m1.shared = m.shared ∧ log' = log)
    (hf : ¬ x.isInside → (∀ u, u ≠ t → ¬ (ph u).isInside) → m1.shared = state (fun c => exec (body c)) s0 log') :
    Lin body g B calls s0 (m1.setThread t th) log' (setPh ph t x) where
  cur := by
    intro u
    rw [threads_setThread, h1, setPh]
    by_cases e : u = t
    · rw [if_pos e, if_pos e]; exact hc
    · rw [if_neg e, if_neg e]; exact hm.cur u
  locks := by rw [held_setPh]; exact hl
  nest := by
    intro u p q h
    rw [setPh]
    by_cases e : u = t
    · rw [if_pos e]; exact hn p q h
    · rw [if_neg e]; exact hm.nest u p q h
  acct := by
    intro u
    rw [threads_setThread, h1, setPh]
    by_cases e : u = t
    · rw [if_pos e, if_pos e, e]; exact ha
    · rw [if_neg e, if_neg e]
      rcases hlog with rfl | ⟨p, rfl⟩
      · exact hm.acct u
      · rw [callsOf_append, if_neg (Ne.symm e), List.append_nil]; exact hm.acct u
  res := by
    intro u
    rw [threads_setThread, h1, setPh]
    by_cases e : u = t
    · rw [if_pos e, if_pos e, e]; exact hr
    · rw [if_neg e, if_neg e]
      rcases hlog with rfl | ⟨p, rfl⟩
      · exact hm.res u
      · rw [results_append, if_neg (Ne.symm e), List.append_nil]; exact hm.res u
  busy := by
    intro u p q h
    rw [setPh]
    by_cases e : u = t
    · rw [if_pos e]; exact hb p q h
    · rw [if_neg e]
      intro hu
      obtain ⟨e1, e2⟩ := ho u e (by rw [hu]; trivial)
      show exec q m1.shared = _
      rw [e1, e2]
      exact hm.busy u p q h hu
  free := by
    intro hall
    show m1.shared = _
    apply hf
    · have := hall t
      simpa [setPh] using this
    · intro u hu
      have := hall u
      simpa [setPh, hu] using this

theorem Lin.step {body : C → Prog σ α} {g B : Nat} {calls : Nat → List C} {s0 : σ} {m : State σ α} {log : List (Nat × C)}
    {ph : Nat → Ph C σ α} (hbody : ∀ t, ∀ p ∈ calls t, Nested B [g] [] (body p)) (hm : Lin body g B calls s0 m log ph) (t : Nat) :
    ∃ log' ph', Lin body g B calls s0 (step m t) log' ph' ∧ log <+: log' := by
  have hcur := hm.cur t
  have hacct := hm.acct t
  have hres := hm.res t
  have hown : LocksAgree m (setHeld (fun u => (ph u).held g) t ((ph t).held g)) := by
    rw [setHeld_self (fun u => (ph u).held g)]; exact hm.locks
  unfold Sync.step
  cases hp : ph t with
  | idle =>
    rw [hp] at hcur hacct hres hown
    rw [hcur]
    simp only [Ph.cur]
    obtain ⟨rest, hr, ha⟩ := hacct
    cases rest with
    | nil =>
      rw [hr]
      exact ⟨log, ph, hm, List.prefix_refl _⟩
    | cons p rest =>
      rw [hr]
      refine ⟨log, setPh ph t (.waiting p), ?_, List.prefix_refl _⟩
      refine hm.upd (m1 := m) rfl (hown.keep rfl) rfl (by simp) (Or.inl rfl) ⟨rest, rfl, ?_⟩ hres (by simp)
        (fun u _ _ => ⟨rfl, rfl⟩) ?_
      · simpa [Ph.pending] using ha
      · intro _ hall
        apply hm.free
        intro u
        by_cases e : u = t
        · rw [e, hp]; exact id
        · exact hall u e
  | waiting p =>
    rw [hp] at hcur hacct hres hown
    rw [hcur]
    simp only [Ph.cur, withLock, stepProg]
    rcases take_cases t (m.locks g) with ⟨e, -⟩ | ⟨w, e, hw, hd⟩
    · rw [e]; exact ⟨log, ph, hm, List.prefix_refl _⟩
    · rw [e]
      have hnone : ∀ u, u ≠ t → ¬ (ph u).isInside := by
        intro u hu hin
        have h1 : 0 < depth (some w) u := by
          rw [hd u, ← hm.locks.2 u g]
          cases eu : ph u with
          | inside p q h => simp [eu, Ph.held]; omega
          | _ => rw [eu] at hin; exact hin.elim
        have h2 : 0 < depth (some w) t := by rw [hd t, if_pos rfl]; omega
        exact hu (depth_unique h1 h2)
      have hsh : m.shared = state (fun c => exec (body c)) s0 log := by
        apply hm.free
        intro u
        by_cases e : u = t
        · rw [e, hp]; exact id
        · exact hnone u e
      refine ⟨log, setPh ph t (.inside p (body p) []), ?_, List.prefix_refl _⟩
      obtain ⟨rest, hr, ha⟩ := hacct
      refine hm.upd (m1 := m.setLock g (some w)) rfl ?_ rfl ?_ (Or.inl rfl) ⟨rest, hr, ha⟩ hres ?_
        (fun u hu hin => (hnone u hu hin).elim) (fun h => (h trivial).elim)
      · have := hm.locks.take hw hd ((m.threads t).goto ((body p).bind (leave g)))
        simpa [hp, Ph.held] using this
      · intro p' q' h' e
        injection e with e1 e2 e3
        subst e1; subst e2; subst e3
        exact hbody t p (by rw [ha]; simp [Ph.pending])
      · intro p' q' h' e
        injection e with e1 e2 e3
        subst e1; subst e2
        show exec (body p) m.shared = _
        rw [hsh]
  | inside p q h =>
    have hin : (ph t).isInside := by rw [hp]; trivial
    have hnone : ∀ u, u ≠ t → ¬ (ph u).isInside := fun u hu hu' => hu (hm.unique hu' hin)
    have hn := hm.nest t p q h hp
    have hbusy := hm.busy t p q h hp
    rw [hp] at hcur hacct hres hown
    rw [hcur]
    simp only [Ph.cur]
    cases q with
    | ret a =>
      simp only [Nested] at hn
      subst hn
      simp only [Prog.bind, leave, stepProg]
      refine ⟨log ++ [(t, p)], setPh ph t (.fin a), ?_, List.prefix_append _ _⟩
      obtain ⟨rest, hr, ha⟩ := hacct
      refine hm.upd (m1 := m.setLock g _) rfl (hm.locks.drop (h' := []) (by simp [hp, Ph.held]) _) rfl (by simp)
        (Or.inr ⟨p, rfl⟩) ⟨rest, hr, ?_⟩ ?_ (by simp) (fun u hu hin => (hnone u hu hin).elim) ?_
      · rw [callsOf_append, if_pos rfl]
        simpa [Ph.pending] using ha
      · rw [results_append, if_pos rfl, hres, ← hbusy]
        simp [Ph.extra, exec, Thread.goto]
      · intro _ _
        rw [state_append, ← hbusy]
        rfl
    | atomic f k =>
      simp only [Nested] at hn
      simp only [Prog.bind, stepProg]
      refine ⟨log, setPh ph t (.inside p (k m.shared) h), ?_, List.prefix_refl _⟩
      refine hm.upd (m1 := { m with shared := f m.shared }) rfl (hown.keep rfl) rfl ?_ (Or.inl rfl) hacct hres ?_
        (fun u hu hin => (hnone u hu hin).elim) (fun h => (h trivial).elim)
      · intro p' q' h' e
        injection e with e1 e2 e3
        subst e1; subst e2; subst e3
        exact hn _
      · intro p' q' h' e
        injection e with e1 e2 e3
        subst e1; subst e2
        rw [← hbusy]
        rfl
    | acquire l k =>
      simp only [Nested] at hn
      simp only [Prog.bind, stepProg]
      rcases take_cases t (m.locks l) with ⟨e, -⟩ | ⟨w, e, hw, hd⟩
      · rw [e]; exact ⟨log, ph, hm, List.prefix_refl _⟩
      · rw [e]
        refine ⟨log, setPh ph t (.inside p k (l :: h)), ?_, List.prefix_refl _⟩
        refine hm.upd (m1 := m.setLock l (some w)) rfl ?_ rfl ?_ (Or.inl rfl) hacct hres ?_
          (fun u hu hin => (hnone u hu hin).elim) (fun h => (h trivial).elim)
        · have := hm.locks.take hw hd ((m.threads t).goto (k.bind (leave g)))
          simpa [hp, Ph.held] using this
        · intro p' q' h' e
          injection e with e1 e2 e3
          subst e1; subst e2; subst e3
          exact hn.2
        · intro p' q' h' e
          injection e with e1 e2 e3
          subst e1; subst e2
          rw [← hbusy]
          rfl
    | release l k =>
      simp only [Nested] at hn
      obtain ⟨h', eh, hn⟩ := hn
      subst eh
      simp only [Prog.bind, stepProg]
      refine ⟨log, setPh ph t (.inside p k h'), ?_, List.prefix_refl _⟩
      refine hm.upd (m1 := m.setLock l _) rfl (hm.locks.drop (by simp [hp, Ph.held]) _) rfl ?_ (Or.inl rfl) hacct hres ?_
        (fun u hu hin => (hnone u hu hin).elim) (fun h => (h trivial).elim)
      · intro p' q' h' e
        injection e with e1 e2 e3
        subst e1; subst e2; subst e3
        exact hn
      · intro p' q' h' e
        injection e with e1 e2 e3
        subst e1; subst e2
        rw [← hbusy]
        rfl
  | fin a =>
    rw [hp] at hcur hacct hres hown
    rw [hcur]
    simp only [Ph.cur, stepProg]
    refine ⟨log, setPh ph t .idle, ?_, List.prefix_refl _⟩
    refine hm.upd (m1 := m) rfl (hown.keep rfl) rfl (by simp) (Or.inl rfl) hacct (by simpa [Ph.extra] using hres) (by simp)
      (fun u _ _ => ⟨rfl, rfl⟩) ?_
    intro _ hall
    apply hm.free
    intro u
    by_cases e : u = t
    · rw [e, hp]; exact id
    · exact hall u e

/-- A chain of logs along a schedule. -/
theorem Lin.chain {body : C → Prog σ α} {g B : Nat} {calls : Nat → List C} {s0 : σ} (hbody : ∀ t, ∀ p ∈ calls t, Nested B [g] [] (body p))
    (m : Nat → State σ α) (sched : Nat → Nat) (h0 : m 0 = Sync.init s0 (fun t => (calls t).map (fun c => withLock g (body c))))
    (hs : ∀ n, m (n + 1) = Sync.step (m n) (sched n)) :
    ∃ L : Nat → List (Nat × C), ∀ n, (∃ ph, Lin body g B calls s0 (m n) (L n) ph) ∧ L n <+: L (n + 1) := by
  have next : ∀ n log, (∃ ph, Lin body g B calls s0 (m n) log ph) →
      ∃ log', (∃ ph, Lin body g B calls s0 (m (n + 1)) log' ph) ∧ log <+: log' := by
    intro n log ⟨ph, h⟩
    obtain ⟨log', ph', h', hpre⟩ := Lin.step hbody h (sched n)
    exact ⟨log', ⟨ph', by rw [hs]; exact h'⟩, hpre⟩
  let T : Nat → Type := fun n => { log : List (Nat × C) // ∃ ph, Lin body g B calls s0 (m n) log ph }
  let F : (n : Nat) → T n := fun n =>
    Nat.rec (motive := T) ⟨[], fun _ => .idle, by rw [h0]; exact Lin.init⟩
      (fun n x => ⟨Classical.choose (next n x.1 x.2), (Classical.choose_spec (next n x.1 x.2)).1⟩) n
  exact ⟨fun n => (F n).1, fun n => ⟨(F n).2, (Classical.choose_spec (next n (F n).1 (F n).2)).2⟩⟩

/-! ## Every call can complete -/

/-- No thread other than `t` holds a lock. -/
def OnlyOwner (m : State σ α) (t : Nat) : Prop := ∀ l o n, m.locks l = some (o, n) → o = t

theorem drop_owner {t o n : Nat} {v : Option (Nat × Nat)} (hv : ∀ o n, v = some (o, n) → o = t) (h : drop t v = some (o, n)) : o = t := by
  cases v with
  | none => simp [drop] at h
  | some x =>
    obtain ⟨o', n'⟩ := x
    have := hv o' n' rfl
    subst this
    simp [drop] at h
    exact h.2.1.symm

theorem run_append (m : State σ α) (a b : List Nat) : run m (a ++ b) = run (run m a) b := by
  simp [run]

/-- A thread in a call, with no other thread holding a lock, can run to the end of the call. -/
theorem run_solo (t : Nat) :
    ∀ (p : Prog σ α) (m : State σ α), (m.threads t).cur = some p → OnlyOwner m t →
      ∃ sched, ((run m sched).threads t).cur = none ∧ ((run m sched).threads t).todo = (m.threads t).todo
        ∧ (∀ u, u ≠ t → (run m sched).threads u = m.threads u) ∧ OnlyOwner (run m sched) t
  | .ret a, m, hc, ho => by
    refine ⟨[t], ?_⟩
    simp only [run, List.foldl_cons, List.foldl_nil, step, hc, stepProg]
    refine ⟨by simp [State.setThread], by simp [State.setThread], fun u hu => by simp [State.setThread, hu], ho⟩
  | .atomic f k, m, hc, ho => by
    have hs : step m t = { m with shared := f m.shared }.setThread t ((m.threads t).goto (k m.shared)) := by
      simp only [step, hc, stepProg]
    obtain ⟨sched, h1, h2, h3, h4⟩ := run_solo t (k m.shared) (step m t)
      (by rw [hs]; simp [State.setThread, Thread.goto]) (by rw [hs]; exact ho)
    refine ⟨t :: sched, h1, ?_, ?_, h4⟩
    · show ((run (step m t) sched).threads t).todo = _
      rw [h2, hs]; simp [State.setThread, Thread.goto]
    · intro u hu
      show (run (step m t) sched).threads u = _
      rw [h3 u hu, hs]; simp [State.setThread, hu]
  | .acquire l k, m, hc, ho => by
    rcases take_cases t (m.locks l) with ⟨-, o, n, e, hne⟩ | ⟨w, e, hw, hd⟩
    · exact (hne (ho l o n e)).elim
    · have hs : step m t = (m.setLock l (some w)).setThread t ((m.threads t).goto k) := by
        simp only [step, hc, stepProg, e]
      have hw1 : w.1 = t := by
        have h2 : 0 < depth (some w) t := by rw [hd t, if_pos rfl]; omega
        obtain ⟨n, e, _⟩ := depth_pos h2
        injection e with e
        rw [e]
      have ho' : OnlyOwner (step m t) t := by
        rw [hs]
        intro l' o n h
        by_cases el : l' = l
        · simp [State.setThread, State.setLock, el] at h
          rw [h] at hw1; exact hw1
        · simp [State.setThread, State.setLock, el] at h
          exact ho l' o n h
      obtain ⟨sched, h1, h2, h3, h4⟩ := run_solo t k (step m t)
        (by rw [hs]; simp [State.setThread, Thread.goto]) ho'
      refine ⟨t :: sched, h1, ?_, ?_, h4⟩
      · show ((run (step m t) sched).threads t).todo = _
        rw [h2, hs]; simp [State.setThread, Thread.goto]
      · intro u hu
        show (run (step m t) sched).threads u = _
        rw [h3 u hu, hs]; simp [State.setThread, State.setLock, hu]
  | .release l k, m, hc, ho => by
    have hs : step m t = (m.setLock l (drop t (m.locks l))).setThread t ((m.threads t).goto k) := by
      simp only [step, hc, stepProg]
    have ho' : OnlyOwner (step m t) t := by
      rw [hs]
      intro l' o n h
      by_cases el : l' = l
      · simp [State.setThread, State.setLock, el] at h
        exact drop_owner (ho l) h
      · simp [State.setThread, State.setLock, el] at h
        exact ho l' o n h
    obtain ⟨sched, h1, h2, h3, h4⟩ := run_solo t k (step m t)
      (by rw [hs]; simp [State.setThread, Thread.goto]) ho'
    refine ⟨t :: sched, h1, ?_, ?_, h4⟩
    · show ((run (step m t) sched).threads t).todo = _
      rw [h2, hs]; simp [State.setThread, Thread.goto]
    · intro u hu
      show (run (step m t) sched).threads u = _
      rw [h3 u hu, hs]; simp [State.setThread, State.setLock, hu]

theorem Lin.run {body : C → Prog σ α} {g B : Nat} {calls : Nat → List C} {s0 : σ} (hbody : ∀ t, ∀ p ∈ calls t, Nested B [g] [] (body p))
    (sched : List Nat) : ∀ {m : State σ α} {log : List (Nat × C)} {ph : Nat → Ph C σ α}, Lin body g B calls s0 m log ph →
      ∃ log' ph', Lin body g B calls s0 (run m sched) log' ph' := by
  induction sched with
  | nil => exact fun hm => ⟨_, _, hm⟩
  | cons t ts ih =>
    intro m log ph hm
    obtain ⟨log', ph', h', -⟩ := Lin.step hbody hm t
    exact ih h'

/-- No lock is held. -/
def AllFree (m : State σ α) : Prop := ∀ l, m.locks l = none

theorem Lin.held_cases {body : C → Prog σ α} {g B : Nat} {calls : Nat → List C} {s0 : σ} {m : State σ α} {log : List (Nat × C)}
    {ph : Nat → Ph C σ α} (hm : Lin body g B calls s0 m log ph) : AllFree m ∨ ∃ t, (m.threads t).cur ≠ none ∧ OnlyOwner m t := by
  by_cases h : ∃ t, (ph t).isInside
  · obtain ⟨t, ht⟩ := h
    right
    refine ⟨t, ?_, ?_⟩
    · rw [hm.cur t]
      cases e : ph t with
      | inside p q h => simp [Ph.cur]
      | _ => rw [e] at ht; exact ht.elim
    · intro l o n e
      have := hm.locks.owner e
      refine hm.unique ?_ ht
      cases eo : ph o with
      | inside p q h => trivial
      | _ => simp [eo, Ph.held] at this
  · left
    intro l
    refine hm.locks.free (fun t => ?_)
    cases eo : ph t with
    | inside p q h' => exact (h ⟨t, by rw [eo]; trivial⟩).elim
    | _ => simp [Ph.held]

theorem Lin.idle_free {body : C → Prog σ α} {g B : Nat} {calls : Nat → List C} {s0 : σ} {m : State σ α} {log : List (Nat × C)}
    {ph : Nat → Ph C σ α} (hm : Lin body g B calls s0 m log ph) {t : Nat} (ho : OnlyOwner m t) (hc : (m.threads t).cur = none) : AllFree m := by
  intro l
  cases e : m.locks l with
  | none => rfl
  | some x =>
    obtain ⟨o, n⟩ := x
    have := ho l o n e
    subst this
    have h1 := hm.locks.owner e
    have h2 := hm.cur o
    rw [hc] at h2
    cases eo : ph o with
    | inside p q h => rw [eo] at h2; simp [Ph.cur] at h2
    | _ => simp [eo, Ph.held] at h1

/-- Thread `t` can finish its calls, once no lock is held. -/
theorem Lin.finish {body : C → Prog σ α} {g B : Nat} {calls : Nat → List C} {s0 : σ} (hbody : ∀ t, ∀ p ∈ calls t, Nested B [g] [] (body p)) (t : Nat) :
    ∀ (k : Nat) {m : State σ α} {log : List (Nat × C)} {ph : Nat → Ph C σ α}, Lin body g B calls s0 m log ph → AllFree m →
      (m.threads t).todo.length = k →
      ∃ sched, ((Sync.run m sched).threads t).cur = none ∧ ((Sync.run m sched).threads t).todo = [] ∧ AllFree (Sync.run m sched)
        ∧ ∀ u, u ≠ t → (Sync.run m sched).threads u = m.threads u := by
  intro k
  -- first bring the thread between calls
  have key : ∀ {m : State σ α} {log : List (Nat × C)} {ph : Nat → Ph C σ α}, Lin body g B calls s0 m log ph → AllFree m →
      ∃ sched, ((Sync.run m sched).threads t).cur = none ∧ ((Sync.run m sched).threads t).todo = (m.threads t).todo
        ∧ AllFree (Sync.run m sched) ∧ ∀ u, u ≠ t → (Sync.run m sched).threads u = m.threads u := by
    intro m log ph hm hf
    cases hc : (m.threads t).cur with
    | none => exact ⟨[], hc, rfl, hf, fun _ _ => rfl⟩
    | some p =>
      obtain ⟨sched, h1, h2, h3, h4⟩ := run_solo t p m hc (by intro l o n e; rw [hf l] at e; simp at e)
      obtain ⟨log', ph', hm'⟩ := Lin.run hbody sched hm
      exact ⟨sched, h1, h2, hm'.idle_free h4 h1, h3⟩
  induction k with
  | zero =>
    intro m log ph hm hf hk
    obtain ⟨sched, h1, h2, h3, h4⟩ := key hm hf
    refine ⟨sched, h1, ?_, h3, h4⟩
    rw [h2]
    exact List.length_eq_zero_iff.1 hk
  | succ k ih =>
    intro m log ph hm hf hk
    obtain ⟨sched, h1, h2, h3, h4⟩ := key hm hf
    obtain ⟨log', ph', hm'⟩ := Lin.run hbody sched hm
    cases htd : (m.threads t).todo with
    | nil => rw [htd] at hk; simp at hk
    | cons c cs =>
      have hs : Sync.step (Sync.run m sched) t
          = (Sync.run m sched).setThread t { (Sync.run m sched).threads t with cur := some c, todo := cs } := by
        simp only [Sync.step, h1, h2, htd, startNext]
      obtain ⟨log2, ph2, hm2, -⟩ := Lin.step hbody hm' t
      obtain ⟨s2, e1, e2, e3, e4⟩ := ih hm2 (by rw [hs]; exact h3)
        (by rw [hs]; simp [State.setThread]; rw [htd] at hk; simpa using hk)
      have hrun : Sync.run m (sched ++ t :: s2) = Sync.run (Sync.step (Sync.run m sched) t) s2 := by rw [run_append]; rfl
      refine ⟨sched ++ t :: s2, ?_⟩
      rw [hrun]
      refine ⟨e1, e2, e3, fun u hu => ?_⟩
      rw [e4 u hu, hs]
      simp [State.setThread, hu, h4 u hu]

/-- From a state with no lock held all of the first `N` threads can finish their calls. -/
theorem Lin.finishAll {body : C → Prog σ α} {g B : Nat} {calls : Nat → List C} {s0 : σ} (hbody : ∀ t, ∀ p ∈ calls t, Nested B [g] [] (body p)) :
    ∀ (N : Nat) {m : State σ α} {log : List (Nat × C)} {ph : Nat → Ph C σ α}, Lin body g B calls s0 m log ph → AllFree m →
      ∃ sched, AllFree (Sync.run m sched) ∧
        ∀ t < N, ((Sync.run m sched).threads t).cur = none ∧ ((Sync.run m sched).threads t).todo = [] := by
  intro N
  induction N with
  | zero => exact fun hm hf => ⟨[], hf, fun t ht => by omega⟩
  | succ N ih =>
    intro m log ph hm hf
    obtain ⟨s1, hf1, h1⟩ := ih hm hf
    obtain ⟨log', ph', hm'⟩ := Lin.run hbody s1 hm
    obtain ⟨s2, e1, e2, e3, e4⟩ := Lin.finish hbody N _ hm' hf1 rfl
    refine ⟨s1 ++ s2, ?_⟩
    rw [run_append]
    refine ⟨e3, fun t ht => ?_⟩
    by_cases e : t = N
    · subst e; exact ⟨e1, e2⟩
    · rw [e4 t e]; exact h1 t (by omega)

theorem Lin.completes {body : C → Prog σ α} {g B : Nat} {calls : Nat → List C} {s0 : σ} (hbody : ∀ t, ∀ p ∈ calls t, Nested B [g] [] (body p))
    {m : State σ α} {log : List (Nat × C)} {ph : Nat → Ph C σ α} (hm : Lin body g B calls s0 m log ph) (N : Nat) :
    ∃ sched, ∀ t < N, ((Sync.run m sched).threads t).cur = none ∧ ((Sync.run m sched).threads t).todo = [] := by
  rcases hm.held_cases with hf | ⟨t, hc, ho⟩
  · obtain ⟨s, -, h⟩ := Lin.finishAll hbody N hm hf
    exact ⟨s, h⟩
  · cases e : (m.threads t).cur with
    | none => exact (hc e).elim
    | some p =>
      obtain ⟨s1, h1, h2, h3, h4⟩ := run_solo t p m e ho
      obtain ⟨log', ph', hm'⟩ := Lin.run hbody s1 hm
      obtain ⟨s2, -, h⟩ := Lin.finishAll hbody N hm' (hm'.idle_free h4 h1)
      refine ⟨s1 ++ s2, ?_⟩
      rw [run_append]
      exact h

end Verif.Sync
