import Verif.Spec.Locks

/-! # Lemmas about threads that use re-entrant locks -/

set_option linter.unusedSectionVars false
set_option linter.unusedVariables false
set_option linter.unusedSimpArgs false

namespace Verif.Sync

variable {σ α β : Type}

theorem Nested.bind {B : Nat} {b : List Nat} {k : α → Prog σ β} (hk : ∀ a, Nested B b [] (k a)) :
    ∀ (p : Prog σ α) (h : List Nat), Nested B b h p → Nested B b h (p.bind k)
  | .ret a, h, hp => by
      simp only [Nested] at hp
      simp only [Prog.bind, hp]
      exact hk a
  | .atomic f j, h, hp => by
      simp only [Nested] at hp
      simp only [Prog.bind, Nested]
      exact fun s => Nested.bind hk (j s) h (hp s)
  | .acquire l p, h, hp => by
      simp only [Nested] at hp
      simp only [Prog.bind, Nested]
      exact ⟨hp.1, Nested.bind hk p _ hp.2⟩
  | .release l p, h, hp => by
      simp only [Nested] at hp
      obtain ⟨h', e, hp⟩ := hp
      simp only [Prog.bind, Nested]
      exact ⟨h', e, Nested.bind hk p _ hp⟩

theorem Nested.leave {B : Nat} {b : List Nat} {l : Nat} :
    ∀ (p : Prog σ α) (h : List Nat), Nested B (l :: b) h p → Nested B b (h ++ [l]) (p.bind (leave l))
  | .ret a, h, hp => by
      simp only [Nested] at hp
      subst hp
      simp only [Prog.bind, Sync.leave, Nested]
      exact ⟨[], rfl, rfl⟩
  | .atomic f j, h, hp => by
      simp only [Nested] at hp
      simp only [Prog.bind, Nested]
      exact fun s => Nested.leave (j s) h (hp s)
  | .acquire l' p, h, hp => by
      simp only [Nested] at hp
      simp only [Prog.bind, Nested]
      refine ⟨?_, Nested.leave p _ hp.2⟩
      rw [List.append_assoc]
      exact hp.1
  | .release l' p, h, hp => by
      simp only [Nested] at hp
      obtain ⟨h', e, hp⟩ := hp
      subst e
      simp only [Prog.bind, Nested]
      exact ⟨h' ++ [l], rfl, Nested.leave p _ hp⟩

theorem Nested.withLock {B : Nat} {b : List Nat} {l : Nat} {p : Prog σ α} (hl : MayTake B b l)
    (hp : Nested B (l :: b) [] p) : Nested B b [] (withLock l p) := by
  simp only [Sync.withLock, Nested]
  exact ⟨hl, Nested.leave p [] hp⟩

theorem exec_bind (k : α → Prog σ β) :
    ∀ (p : Prog σ α) (s : σ), exec (p.bind k) s = exec (k (exec p s).2) (exec p s).1
  | .ret a, s => rfl
  | .atomic f j, s => by simp only [Prog.bind, exec]; exact exec_bind k (j s) (f s)
  | .acquire l p, s => by simp only [Prog.bind, exec]; exact exec_bind k p s
  | .release l p, s => by simp only [Prog.bind, exec]; exact exec_bind k p s

theorem exec_withLock (l : Nat) (p : Prog σ α) (s : σ) : exec (withLock l p) s = exec p s := by
  simp only [withLock, exec, exec_bind, leave]

/-! ## Locks -/

/-- How often thread `t` holds a lock. -/
def depth (v : Option (Nat × Nat)) (t : Nat) : Nat :=
  match v with
  | none => 0
  | some (o, n) => if o = t then n else 0

theorem depth_pos {v : Option (Nat × Nat)} {t : Nat} (h : 0 < depth v t) : ∃ n, v = some (t, n) ∧ 0 < n := by
  cases v with
  | none => simp [depth] at h
  | some x =>
    obtain ⟨o, n⟩ := x
    by_cases e : o = t
    · subst e; simp [depth] at h; exact ⟨n, rfl, h⟩
    · simp [depth, e] at h

theorem depth_unique {v : Option (Nat × Nat)} {t u : Nat} (h : 0 < depth v t) (h' : 0 < depth v u) : t = u := by
  obtain ⟨n, e, _⟩ := depth_pos h
  obtain ⟨n', e', _⟩ := depth_pos h'
  rw [e] at e'
  injection e' with e'
  injection e'

theorem take_cases (t : Nat) (v : Option (Nat × Nat)) :
    (take t v = none ∧ ∃ o n, v = some (o, n) ∧ o ≠ t)
    ∨ ∃ w, take t v = some w ∧ 0 < w.2 ∧ ∀ u, depth (some w) u = depth v u + (if u = t then 1 else 0) := by
  cases v with
  | none =>
    right
    refine ⟨(t, 1), rfl, Nat.one_pos, fun u => ?_⟩
    by_cases e : u = t
    · subst e; simp [depth]
    · simp [depth, e, Ne.symm e]
  | some x =>
    obtain ⟨o, n⟩ := x
    by_cases e : o = t
    · right
      subst e
      refine ⟨(o, n + 1), by simp [take], by simp, fun u => ?_⟩
      by_cases e : u = o
      · subst e; simp [depth]
      · simp [depth, e, Ne.symm e]
    · left
      exact ⟨by simp [take, e], o, n, rfl, e⟩

/-- Held locks have a positive count. -/
def PosLock (v : Option (Nat × Nat)) : Prop := ∀ o n, v = some (o, n) → 0 < n

theorem drop_spec {t : Nat} {v : Option (Nat × Nat)} (h : 0 < depth v t) :
    PosLock (drop t v) ∧ ∀ u, depth (drop t v) u = depth v u - (if u = t then 1 else 0) := by
  obtain ⟨n, rfl, hn⟩ := depth_pos h
  by_cases h1 : n ≤ 1
  · refine ⟨by simp [drop, h1, PosLock], fun u => ?_⟩
    by_cases e : u = t
    · subst e; simp [drop, h1, depth] <;> omega
    · simp [drop, h1, depth, e, Ne.symm e]
  · refine ⟨?_, fun u => ?_⟩
    · intro o m hm
      simp [drop, h1] at hm
      omega
    · by_cases e : u = t
      · subst e; simp [drop, h1, depth]
      · simp [drop, h1, depth, e, Ne.symm e]

/-- The ghost lists of held locks agree with the locks. -/
def LocksAgree (m : State σ α) (held : Nat → List Nat) : Prop :=
  (∀ l, PosLock (m.locks l)) ∧ ∀ t l, (held t).count l = depth (m.locks l) t

/-- Replace one list. -/
def setHeld (held : Nat → List Nat) (t : Nat) (h : List Nat) : Nat → List Nat := fun u => if u = t then h else held u

theorem setHeld_self (held : Nat → List Nat) (t : Nat) : setHeld held t (held t) = held := by
  funext u
  by_cases e : u = t
  · subst e; simp [setHeld]
  · simp [setHeld, e]

theorem LocksAgree.take {m : State σ α} {held : Nat → List Nat} (hm : LocksAgree m held) {t l : Nat} {w : Nat × Nat}
    (hw : 0 < w.2) (h : ∀ u, depth (some w) u = depth (m.locks l) u + (if u = t then 1 else 0)) (th : Thread σ α) :
    LocksAgree ((m.setLock l (some w)).setThread t th) (setHeld held t (l :: held t)) := by
  constructor
  · intro l' o n e
    simp only [State.setThread, State.setLock] at e
    by_cases el : l' = l
    · simp [el] at e; rw [e] at hw; exact hw
    · simp [el] at e; exact hm.1 l' o n e
  · intro u l'
    simp only [State.setThread, State.setLock, setHeld]
    by_cases el : l' = l
    · subst el
      rw [if_pos rfl, h u]
      by_cases eu : u = t
      · subst eu; simp [hm.2]
      · simp [eu, hm.2]
    · rw [if_neg el]
      by_cases eu : u = t
      · subst eu; simp [List.count_cons, Ne.symm el, hm.2]
      · simp [eu, hm.2]

theorem LocksAgree.drop {m : State σ α} {held : Nat → List Nat} (hm : LocksAgree m held) {t l : Nat} {h' : List Nat}
    (hh : held t = l :: h') (th : Thread σ α) :
    LocksAgree ((m.setLock l (drop t (m.locks l))).setThread t th) (setHeld held t h') := by
  have hpos : 0 < depth (m.locks l) t := by rw [← hm.2 t l, hh]; simp
  obtain ⟨hp, hd⟩ := drop_spec hpos
  constructor
  · intro l'
    simp only [State.setThread, State.setLock]
    by_cases el : l' = l
    · simp [el]; exact hp
    · simp [el]; exact hm.1 l'
  · intro u l'
    simp only [State.setThread, State.setLock, setHeld]
    by_cases el : l' = l
    · subst el
      rw [if_pos rfl, hd u]
      by_cases eu : u = t
      · subst eu
        have := hm.2 u l'
        rw [hh] at this
        simp at this
        simp; omega
      · simp [eu, hm.2]
    · rw [if_neg el]
      by_cases eu : u = t
      · subst eu
        have := hm.2 u l'
        rw [hh] at this
        simp [List.count_cons, Ne.symm el] at this
        simp; omega
      · simp [eu, hm.2]

theorem LocksAgree.keep {m m' : State σ α} {held : Nat → List Nat} (hm : LocksAgree m held) (e : m'.locks = m.locks) :
    LocksAgree m' held := by
  unfold LocksAgree
  rw [e]
  exact hm

theorem LocksAgree.free {m : State σ α} {held : Nat → List Nat} (hm : LocksAgree m held) {l : Nat} (h : ∀ t, l ∉ held t) :
    m.locks l = none := by
  cases e : m.locks l with
  | none => rfl
  | some x =>
    obtain ⟨o, n⟩ := x
    have h1 := hm.2 o l
    rw [e] at h1
    have h2 := hm.1 l o n e
    have h3 : (held o).count l = 0 := List.count_eq_zero.2 (h o)
    simp [depth] at h1
    omega

theorem LocksAgree.owner {m : State σ α} {held : Nat → List Nat} (hm : LocksAgree m held) {l o n : Nat}
    (h : m.locks l = some (o, n)) : l ∈ held o := by
  have h1 := hm.2 o l
  have h2 := hm.1 l o n h
  rw [h] at h1
  simp [depth] at h1
  exact List.count_pos_iff.1 (by omega)

/-! ## Deadlock freedom of programs that take locks in rank order -/

/-- Every thread in a call holds what its program expects. -/
structure Ordered (B : Nat) (m : State σ α) (held : Nat → List Nat) : Prop where
  locks : LocksAgree m held
  cur : ∀ t p, (m.threads t).cur = some p → Nested B [] (held t) p
  bound : ∀ t l, l ∈ held t → l < B
  idle : ∀ t, (m.threads t).cur = none → held t = []
  todo : ∀ t, ∀ p ∈ (m.threads t).todo, Nested B [] [] p

theorem Ordered.init {B : Nat} {s0 : σ} {calls : Nat → List (Prog σ α)} (h : ∀ t, ∀ p ∈ calls t, Nested B [] [] p) :
    Ordered B (init s0 calls) (fun _ => []) where
  locks := ⟨by intro l o n e; simp [Sync.init] at e, by intro t l; simp [Sync.init, depth]⟩
  cur := by intro t p e; simp [Sync.init] at e
  bound := by simp
  idle := by simp
  todo := by intro t p hp; exact h t p hp

theorem threads_setThread (m : State σ α) (t u : Nat) (th : Thread σ α) :
    (m.setThread t th).threads u = if u = t then th else m.threads u := rfl

theorem threads_setLock (m : State σ α) (l : Nat) (v : Option (Nat × Nat)) : (m.setLock l v).threads = m.threads := rfl

/-- Rebuild `Ordered` after thread `t` has moved. -/
theorem Ordered.upd {B : Nat} {m : State σ α} {held : Nat → List Nat} (hm : Ordered B m held) {t : Nat} {th : Thread σ α}
    {h' : List Nat} {m1 : State σ α} (h1 : m1.threads = m.threads)
    (hl : LocksAgree (m1.setThread t th) (setHeld held t h'))
    (hc : ∀ p, th.cur = some p → Nested B [] h' p) (hb : ∀ l ∈ h', l < B) (hi : th.cur = none → h' = [])
    (ht : ∀ p ∈ th.todo, Nested B [] [] p) : Ordered B (m1.setThread t th) (setHeld held t h') where
  locks := hl
  cur := by
    intro u p
    rw [threads_setThread, h1, setHeld]
    by_cases e : u = t
    · rw [if_pos e, if_pos e]; exact hc p
    · rw [if_neg e, if_neg e]; exact hm.cur u p
  bound := by
    intro u l
    rw [setHeld]
    by_cases e : u = t
    · rw [if_pos e]; exact hb l
    · rw [if_neg e]; exact hm.bound u l
  idle := by
    intro u
    rw [threads_setThread, h1, setHeld]
    by_cases e : u = t
    · rw [if_pos e, if_pos e]; exact hi
    · rw [if_neg e, if_neg e]; exact hm.idle u
  todo := by
    intro u p
    rw [threads_setThread, h1]
    by_cases e : u = t
    · rw [if_pos e]; exact ht p
    · rw [if_neg e]; exact hm.todo u p

theorem Ordered.step {B : Nat} {m : State σ α} {held : Nat → List Nat} (hm : Ordered B m held) (t : Nat) :
    ∃ held', Ordered B (step m t) held' := by
  unfold Sync.step
  cases hc : (m.threads t).cur with
  | none =>
    cases htd : (m.threads t).todo with
    | nil => exact ⟨held, hm⟩
    | cons c cs =>
      refine ⟨setHeld held t (held t), ?_⟩
      have hmem := hm.todo t
      rw [htd] at hmem
      refine hm.upd (m1 := m) rfl ?_ ?_ (hm.bound t) (by simp) (fun p hp => hmem p (by simp [hp]))
      · rw [setHeld_self]; exact hm.locks.keep rfl
      · intro p e
        simp at e
        subst e
        rw [hm.idle t hc]
        exact hmem c (by simp)
  | some p =>
    have hp := hm.cur t p hc
    cases p with
    | ret a =>
      simp only [Nested] at hp
      refine ⟨setHeld held t (held t), ?_⟩
      refine hm.upd (m1 := m) rfl ?_ (by simp) (hm.bound t) (fun _ => hp) (hm.todo t)
      rw [setHeld_self]; exact hm.locks.keep rfl
    | atomic f k =>
      simp only [Nested] at hp
      refine ⟨setHeld held t (held t), ?_⟩
      refine hm.upd (m1 := { m with shared := f m.shared }) rfl ?_ ?_ (hm.bound t) (by simp [Thread.goto]) (hm.todo t)
      · rw [setHeld_self]; exact hm.locks.keep rfl
      · intro p e
        simp only [Thread.goto, Option.some.injEq] at e
        subst e
        exact hp _
    | acquire l k =>
      simp only [Nested, List.append_nil] at hp
      simp only [stepProg]
      rcases take_cases t (m.locks l) with ⟨e, -⟩ | ⟨w, e, hw, hd⟩
      · rw [e]; exact ⟨held, hm⟩
      · rw [e]
        refine ⟨setHeld held t (l :: held t), ?_⟩
        refine hm.upd (m1 := m.setLock l (some w)) rfl (hm.locks.take hw hd _) ?_ ?_ (by simp [Thread.goto]) (hm.todo t)
        · intro p e
          simp only [Thread.goto, Option.some.injEq] at e
          subst e
          exact hp.2
        · intro l' hl'
          rcases List.mem_cons.1 hl' with rfl | hl'
          · exact hp.1.1
          · exact hm.bound t l' hl'
    | release l k =>
      simp only [Nested] at hp
      obtain ⟨h', eh, hp⟩ := hp
      simp only [stepProg]
      refine ⟨setHeld held t h', ?_⟩
      refine hm.upd (m1 := m.setLock l _) rfl (hm.locks.drop eh _) ?_ ?_ (by simp [Thread.goto]) (hm.todo t)
      · intro p e
        simp only [Thread.goto, Option.some.injEq] at e
        subst e
        exact hp
      · intro l' hl'
        exact hm.bound t l' (by rw [eh]; simp [hl'])

theorem Ordered.run {B : Nat} (sched : List Nat) :
    ∀ {m : State σ α} {held : Nat → List Nat}, Ordered B m held → ∃ held', Ordered B (run m sched) held' := by
  induction sched with
  | nil => exact fun hm => ⟨_, hm⟩
  | cons t ts ih =>
    intro m held hm
    obtain ⟨held', h'⟩ := hm.step t
    exact ih h'

/-- Climbing from a held lock: some owner of a lock does not wait. -/
theorem Ordered.climb {B : Nat} {m : State σ α} {held : Nat → List Nat} (hm : Ordered B m held) :
    ∀ (d l o n : Nat), B - l ≤ d → m.locks l = some (o, n) → ∃ t, (m.threads t).cur ≠ none ∧ ¬ Waits m t := by
  intro d
  induction d with
  | zero =>
    intro l o n hd hl
    have := hm.bound o l (hm.locks.owner hl)
    omega
  | succ d ih =>
    intro l o n hd hl
    have hmem := hm.locks.owner hl
    have hlB := hm.bound o l hmem
    by_cases hw : Waits m o
    · obtain ⟨l', k, o', n', hc, hl', ho⟩ := hw
      have hp := hm.cur o _ hc
      simp only [Nested, List.append_nil] at hp
      have hlt : l < l' := by
        rcases hp.1.2 with hin | hall
        · exfalso
          have h1 : 0 < depth (m.locks l') o := by
            rw [← hm.locks.2 o l']
            exact List.count_pos_iff.2 hin
          obtain ⟨n'', e, _⟩ := depth_pos h1
          rw [hl'] at e
          injection e with e
          injection e with e _
          exact ho e
        · exact hall l hmem
      exact ih l' o' n' (by omega) hl'
    · refine ⟨o, ?_, hw⟩
      intro hn
      rw [hm.idle o hn] at hmem
      simp at hmem

theorem Ordered.no_deadlock {B : Nat} {m : State σ α} {held : Nat → List Nat} (hm : Ordered B m held) {t : Nat}
    (ht : (m.threads t).cur ≠ none ∨ (m.threads t).todo ≠ []) :
    ∃ u, ((m.threads u).cur ≠ none ∨ (m.threads u).todo ≠ []) ∧ ¬ Waits m u := by
  by_cases hw : Waits m t
  · obtain ⟨l, k, o, n, hc, hl, ho⟩ := hw
    obtain ⟨u, hu, hnw⟩ := hm.climb (B - l) l o n (Nat.le_refl _) hl
    exact ⟨u, Or.inl hu, hnw⟩
  · exact ⟨t, ht, hw⟩

end Verif.Sync
