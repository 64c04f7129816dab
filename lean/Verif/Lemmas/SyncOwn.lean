import Verif.Lemmas.SyncRG

/-! # What a lock protects

`S s s'`: the part of the state that the lock `l` protects is the same in `s` and `s'`.  A program is well behaved if it changes this part only while it holds the lock, and
restores `J` before it lets go of it. -/

set_option linter.unusedSectionVars false
set_option linter.unusedVariables false
set_option linter.unusedSimpArgs false

namespace Verif.Sync

variable {σ α β : Type}

/-- The assertion speaks of the protected part only. -/
def Closed (S : σ → σ → Prop) (A : σ → Prop) : Prop := ∀ s s', A s → S s s' → A s'

/-- `Own l S J Q e n A p`: the thread holds `l` to depth `n`, `A` holds if `n > 0`; at the end the depth is `e` and `Q` holds. -/
def Own (l : Nat) (S : σ → σ → Prop) (J : σ → Prop) (Q : α → σ → Prop) (e : Nat) : Nat → (σ → Prop) → Prog σ α → Prop
  | n, A, .ret a => n = e ∧ ∀ s, A s → Q a s
  | 0, A, .atomic f k => ∀ s, S s (f s) ∧ Own l S J Q e 0 A (k s)
  | n + 1, A, .atomic f k => ∀ s, A s → ∃ A', Closed S A' ∧ A' (f s) ∧ Own l S J Q e (n + 1) A' (k s)
  | 0, A, .acquire l' k => (l' = l → Own l S J Q e 1 J k) ∧ (l' ≠ l → Own l S J Q e 0 A k)
  | n + 1, A, .acquire l' k => (l' = l → Own l S J Q e (n + 2) A k) ∧ (l' ≠ l → Own l S J Q e (n + 1) A k)
  | 0, A, .release l' k => l' ≠ l ∧ Own l S J Q e 0 A k
  | 1, A, .release l' k => (l' = l → (∀ s, A s → J s) ∧ Own l S J Q e 0 (fun _ => True) k) ∧ (l' ≠ l → Own l S J Q e 1 A k)
  | n + 2, A, .release l' k => (l' = l → Own l S J Q e (n + 1) A k) ∧ (l' ≠ l → Own l S J Q e (n + 2) A k)

variable {l : Nat} {S : σ → σ → Prop} {J : σ → Prop}

theorem Own.weaken {Q : α → σ → Prop} {e : Nat} : ∀ (p : Prog σ α) (n : Nat) (A A' : σ → Prop), (∀ s, A s → A' s) → Own l S J Q e n A' p → Own l S J Q e n A p := by
  intro p
  induction p with
  | ret a => intro n A A' h hp; simp only [Own] at hp ⊢; exact ⟨hp.1, fun s hs => hp.2 s (h s hs)⟩
  | atomic f k ih =>
    intro n A A' h hp
    cases n with
    | zero => simp only [Own] at hp ⊢; exact fun s => ⟨(hp s).1, ih s 0 A A' h (hp s).2⟩
    | succ n => simp only [Own] at hp ⊢; exact fun s hs => hp s (h s hs)
  | acquire l' k ih =>
    intro n A A' h hp
    cases n with
    | zero => simp only [Own] at hp ⊢; exact ⟨hp.1, fun hl => ih 0 A A' h (hp.2 hl)⟩
    | succ n => simp only [Own] at hp ⊢; exact ⟨fun hl => ih _ A A' h (hp.1 hl), fun hl => ih _ A A' h (hp.2 hl)⟩
  | release l' k ih =>
    intro n A A' h hp
    match n with
    | 0 => simp only [Own] at hp ⊢; exact ⟨hp.1, ih 0 A A' h hp.2⟩
    | 1 => simp only [Own] at hp ⊢; exact ⟨fun hl => ⟨fun s hs => (hp.1 hl).1 s (h s hs), (hp.1 hl).2⟩, fun hl => ih _ A A' h (hp.2 hl)⟩
    | n + 2 => simp only [Own] at hp ⊢; exact ⟨fun hl => ih _ A A' h (hp.1 hl), fun hl => ih _ A A' h (hp.2 hl)⟩

theorem Own.bind {Q : β → σ → Prop} {Q' : α → σ → Prop} {e e' : Nat} {k : α → Prog σ β} (hk : ∀ a, Own l S J Q e e' (Q' a) (k a)) :
    ∀ (p : Prog σ α) (n : Nat) (A : σ → Prop), Own l S J Q' e' n A p → Own l S J Q e n A (p.bind k) := by
  intro p
  induction p with
  | ret a =>
    intro n A hp
    simp only [Own] at hp
    obtain ⟨rfl, h⟩ := hp
    exact Own.weaken (k a) n A (Q' a) h (hk a)
  | atomic f j ih =>
    intro n A hp
    cases n with
    | zero => simp only [Own, Prog.bind] at hp ⊢; exact fun s => ⟨(hp s).1, ih s 0 A (hp s).2⟩
    | succ n =>
      simp only [Own, Prog.bind] at hp ⊢
      intro s hs
      obtain ⟨A', h1, h2, h3⟩ := hp s hs
      exact ⟨A', h1, h2, ih s _ A' h3⟩
  | acquire l' j ih =>
    intro n A hp
    cases n with
    | zero => simp only [Own, Prog.bind] at hp ⊢; exact ⟨fun hl => ih _ _ (hp.1 hl), fun hl => ih _ _ (hp.2 hl)⟩
    | succ n => simp only [Own, Prog.bind] at hp ⊢; exact ⟨fun hl => ih _ _ (hp.1 hl), fun hl => ih _ _ (hp.2 hl)⟩
  | release l' j ih =>
    intro n A hp
    match n with
    | 0 => simp only [Own, Prog.bind] at hp ⊢; exact ⟨hp.1, ih _ _ hp.2⟩
    | 1 => simp only [Own, Prog.bind] at hp ⊢; exact ⟨fun hl => ⟨(hp.1 hl).1, ih _ _ (hp.1 hl).2⟩, fun hl => ih _ _ (hp.2 hl)⟩
    | n + 2 => simp only [Own, Prog.bind] at hp ⊢; exact ⟨fun hl => ih _ _ (hp.1 hl), fun hl => ih _ _ (hp.2 hl)⟩

/-- Nothing is said about the result. -/
def anyPost : α → σ → Prop := fun _ _ => True

/-- A block under the lock `l`, entered without it. -/
theorem Own.locked {p : Prog σ α} {A : σ → Prop} (hp : Own l S J (fun _ s => J s) 1 1 J p) : Own l S J anyPost 0 0 A (withLock l p) := by
  simp only [withLock, Own]
  refine ⟨fun _ => Own.bind (Q' := fun _ s => J s) (fun a => ?_) p 1 J hp, fun h => absurd rfl h⟩
  simp only [leave, Own]
  exact ⟨fun _ => ⟨fun _ h => h, by trivial, fun _ _ => trivial⟩, fun h => absurd rfl h⟩

/-- A block under another lock. -/
theorem Own.otherLock {p : Prog σ α} {Q : α → σ → Prop} {n l' : Nat} {A : σ → Prop} (hl : l' ≠ l) (hp : Own l S J Q n n A p) : Own l S J Q n n A (withLock l' p) := by
  have hb : Own l S J Q n n A (p.bind (leave l')) := by
    refine Own.bind (Q' := Q) (fun a => ?_) p n A hp
    match n with
    | 0 => simp only [leave, Own]; exact ⟨hl, by trivial, fun _ h => h⟩
    | 1 => simp only [leave, Own]; exact ⟨fun h => absurd h hl, fun _ => ⟨by trivial, fun _ h => h⟩⟩
    | n + 2 => simp only [leave, Own]; exact ⟨fun h => absurd h hl, fun _ => ⟨by trivial, fun _ h => h⟩⟩
  cases n with
  | zero => simp only [withLock, Own]; exact ⟨fun h => absurd h hl, fun _ => hb⟩
  | succ n => simp only [withLock, Own]; exact ⟨fun h => absurd h hl, fun _ => hb⟩

theorem Own.act0 {f : σ → σ × α} {A : σ → Prop} (h : ∀ s, S s (f s).1) : Own l S J anyPost 0 0 A (act f) := by
  simp only [act, Own]
  exact fun s => ⟨h s, by trivial, fun _ _ => trivial⟩

theorem Own.act1 {f : σ → σ × α} {A : σ → Prop} {Q : α → σ → Prop} {n : Nat} (hc : ∀ a, Closed S (Q a)) (h : ∀ s, A s → Q (f s).2 (f s).1) :
    Own l S J Q (n + 1) (n + 1) A (act f) := by
  simp only [act, Own]
  exact fun s hs => ⟨Q (f s).2, hc _, h s hs, by trivial, fun _ h => h⟩

/-- `Qm` after success, `J` after an exception. -/
def okOr (J : σ → Prop) (Qm : β → σ → Prop) : Except Exc β → σ → Prop
  | .ok b, s => Qm b s
  | .error _, s => J s

theorem okOr_closed {Qm : β → σ → Prop} (hJ : Closed S J) (h : ∀ b, Closed S (Qm b)) : ∀ r, Closed S (okOr J Qm r)
  | .ok b => h b
  | .error _ => hJ

theorem Own.andThen1 {p : Prog σ (Except Exc β)} {k : β → Prog σ (Except Exc α)} {A : σ → Prop} {Qm : β → σ → Prop} {Qn : α → σ → Prop} {n : Nat}
    (hp : Own l S J (okOr J Qm) n n A p) (hk : ∀ b, Own l S J (okOr J Qn) n n (Qm b) (k b)) : Own l S J (okOr J Qn) n n A (andThen p k) := by
  refine Own.bind (Q' := okOr J Qm) (fun r => ?_) p n A hp
  cases r with
  | ok b => exact hk b
  | error e => simp only [onOk, Own]; exact ⟨by trivial, fun _ h => h⟩

theorem Own.andThen0 {p : Prog σ (Except Exc β)} {k : β → Prog σ (Except Exc α)} {A : σ → Prop}
    (hp : Own l S J anyPost 0 0 A p) (hk : ∀ b, Own l S J anyPost 0 0 (fun _ => True) (k b)) : Own l S J anyPost 0 0 A (andThen p k) := by
  refine Own.bind (Q' := anyPost) (fun r => ?_) p 0 A hp
  cases r with
  | ok b => exact Own.weaken _ _ _ _ (fun _ _ => trivial) (hk b)
  | error e => simp only [onOk, Own]; exact ⟨by trivial, fun _ _ => trivial⟩

theorem Own.ret0 {a : α} {A : σ → Prop} : Own l S J anyPost 0 0 A (.ret a) := by
  simp only [Own]; exact ⟨by trivial, fun _ _ => trivial⟩

theorem Own.mapOk0 {γ : Type} {f : β → γ} {p : Prog σ (Except Exc β)} {A : σ → Prop} (hp : Own l S J anyPost 0 0 A p) :
    Own l S J anyPost 0 0 A (PileSync.mapOk f p) :=
  Own.bind (Q' := anyPost) (fun _ => Own.ret0) p 0 A hp

theorem Own.mapOk1 {γ : Type} {f : β → γ} {p : Prog σ (Except Exc β)} {A : σ → Prop} (hp : Own l S J (fun _ s => J s) 1 1 A p) :
    Own l S J (fun _ s => J s) 1 1 A (PileSync.mapOk f p) := by
  refine Own.bind (Q' := fun _ s => J s) (fun _ => ?_) p 1 A hp
  simp only [Own]; exact ⟨by trivial, fun _ h => h⟩

theorem Own.toJ {p : Prog σ (Except Exc β)} {A : σ → Prop} (hp : Own l S J (okOr J (fun _ s => J s)) 1 1 A p) : Own l S J (fun _ s => J s) 1 1 A p := by
  have := Own.bind (l := l) (S := S) (J := J) (Q := fun (_ : Except Exc β) s => J s) (e := 1) (Q' := okOr J (fun _ s => J s)) (k := Prog.ret) (fun r => by
    simp only [Own]
    refine ⟨by trivial, fun s h => ?_⟩
    cases r with
    | ok b => exact h
    | error e => exact h) p 1 A hp
  have hb : ∀ q : Prog σ (Except Exc β), q.bind Prog.ret = q := by
    intro q
    induction q with
    | ret a => rfl
    | atomic f k ih => simp only [Prog.bind]; congr; funext s; exact ih s
    | acquire l k ih => simp only [Prog.bind, ih]
    | release l k ih => simp only [Prog.bind, ih]
  rw [hb] at this
  exact this

/-- The invariant of a machine all of whose programs are well behaved. -/
structure OwnInv (l : Nat) (S : σ → σ → Prop) (J : σ → Prop) (m : State σ α) : Prop where
  free : m.locks l = none → J m.shared
  cur : ∀ t p, (m.threads t).cur = some p → ∃ n A, Own l S J anyPost 0 n A p ∧
    ((n = 0 ∧ ∀ d, m.locks l ≠ some (t, d)) ∨ (0 < n ∧ m.locks l = some (t, n) ∧ Closed S A ∧ A m.shared))
  idle : ∀ t, (m.threads t).cur = none → ∀ d, m.locks l ≠ some (t, d)
  todo : ∀ t, ∀ p ∈ (m.threads t).todo, Own l S J anyPost 0 0 (fun _ => True) p

theorem OwnInv.init {s0 : σ} {calls : Nat → List (Prog σ α)} (hJ : J s0) (hc : ∀ t, ∀ p ∈ calls t, Own l S J anyPost 0 0 (fun _ => True) p) :
    OwnInv l S J (init s0 calls) :=
  ⟨fun _ => hJ, fun t p h => absurd h (by simp [Sync.init]), fun t _ d h => absurd h (by simp [Sync.init]), hc⟩

/-- One thread moves on to `k`, the state and the locks may change. -/
theorem OwnInv.goto {m : State σ α} (hm : OwnInv l S J m) {t : Nat} {p : Prog σ α} (hp : (m.threads t).cur = some p) (m1 : State σ α) (k : Prog σ α)
    (e2 : m1.threads = m.threads) (hfree : m1.locks l = none → J m1.shared)
    (hk : ∃ n A, Own l S J anyPost 0 n A k ∧ ((n = 0 ∧ ∀ d, m1.locks l ≠ some (t, d)) ∨ (0 < n ∧ m1.locks l = some (t, n) ∧ Closed S A ∧ A m1.shared)))
    (ho : ∀ u, u ≠ t → (∀ d, m.locks l = some (u, d) ↔ m1.locks l = some (u, d)) ∧ ((∃ d, m.locks l = some (u, d)) → ∀ A, Closed S A → A m.shared → A m1.shared)) :
    OwnInv l S J (m1.setThread t ((m.threads t).goto k)) := by
  refine ⟨hfree, ?_, ?_, ?_⟩
  · intro u q e
    rw [threads_setThread, e2] at e
    by_cases eu : u = t
    · rw [if_pos eu] at e
      simp only [Thread.goto, Option.some.injEq] at e
      subst e; rw [eu]
      exact hk
    · rw [if_neg eu] at e
      obtain ⟨n, A, h1, h2⟩ := hm.cur u q e
      obtain ⟨g1, g2⟩ := ho u eu
      refine ⟨n, A, h1, ?_⟩
      rcases h2 with ⟨h2, h3⟩ | ⟨h2, h3, h4, h5⟩
      · exact Or.inl ⟨h2, fun d hd => h3 d ((g1 d).2 hd)⟩
      · exact Or.inr ⟨h2, (g1 n).1 h3, h4, g2 ⟨n, h3⟩ A h4 h5⟩
  · intro u e d
    rw [threads_setThread, e2] at e
    by_cases eu : u = t
    · rw [if_pos eu] at e; simp [Thread.goto] at e
    · rw [if_neg eu] at e
      exact fun hd => hm.idle u e d (((ho u eu).1 d).2 hd)
  · intro u q e
    rw [threads_setThread, e2] at e
    by_cases eu : u = t
    · rw [if_pos eu] at e; exact hm.todo t q e
    · rw [if_neg eu] at e; exact hm.todo u q e

theorem locks_setLock (m : State σ α) (l l' : Nat) (v : Option (Nat × Nat)) : (m.setLock l v).locks l' = if l' = l then v else m.locks l' := rfl

theorem OwnInv.step {m : State σ α} (hJ : Closed S J) (hm : OwnInv l S J m) (t : Nat) : OwnInv l S J (Sync.step m t) := by
  unfold Sync.step
  cases hc : (m.threads t).cur with
  | none =>
    cases htd : (m.threads t).todo with
    | nil => exact hm
    | cons c cs =>
      have ht := hm.todo t
      rw [htd] at ht
      refine ⟨hm.free, ?_, ?_, ?_⟩
      · intro u p e
        simp only [startNext, threads_setThread] at e
        by_cases eu : u = t
        · rw [if_pos eu] at e
          simp only [Option.some.injEq] at e
          subst e
          exact ⟨0, fun _ => True, ht c (by simp), Or.inl ⟨rfl, by rw [eu]; exact hm.idle t hc⟩⟩
        · rw [if_neg eu] at e; exact hm.cur u p e
      · intro u e
        simp only [startNext, threads_setThread] at e
        by_cases eu : u = t
        · rw [if_pos eu] at e; simp at e
        · rw [if_neg eu] at e; exact hm.idle u e
      · intro u p e
        simp only [startNext, threads_setThread] at e
        by_cases eu : u = t
        · rw [if_pos eu] at e
          rw [eu] at *
          exact ht p (by simp [show p ∈ cs from e])
        · rw [if_neg eu] at e; exact hm.todo u p e
  | some p =>
    obtain ⟨n, A, hown, hst⟩ := hm.cur t p hc
    cases p with
    | ret a =>
      simp only [Own] at hown
      obtain ⟨rfl, -⟩ := hown
      have hno : ∀ d, m.locks l ≠ some (t, d) := by
        rcases hst with h | h
        · exact h.2
        · exact absurd h.1 (by omega)
      refine ⟨hm.free, ?_, ?_, ?_⟩
      · intro u q e
        simp only [stepProg, threads_setThread] at e
        by_cases eu : u = t
        · rw [if_pos eu] at e; simp at e
        · rw [if_neg eu] at e; exact hm.cur u q e
      · intro u e
        simp only [stepProg, threads_setThread] at e
        by_cases eu : u = t
        · rw [eu]; exact hno
        · rw [if_neg eu] at e; exact hm.idle u e
      · intro u q e
        simp only [stepProg, threads_setThread] at e
        by_cases eu : u = t
        · rw [if_pos eu] at e; exact hm.todo t q e
        · rw [if_neg eu] at e; exact hm.todo u q e
    | atomic f k =>
      simp only [stepProg]
      refine hm.goto hc { m with shared := f m.shared } (k m.shared) rfl ?_ ?_ ?_
      · intro hl
        rcases hst with ⟨rfl, h⟩ | ⟨h1, h2, _⟩
        · simp only [Own] at hown; exact hJ _ _ (hm.free hl) (hown m.shared).1
        · rw [show m.locks l = none from hl] at h2; cases h2
      · rcases hst with ⟨rfl, h⟩ | ⟨h1, h2, h3, h4⟩
        · simp only [Own] at hown; exact ⟨0, A, (hown m.shared).2, Or.inl ⟨rfl, h⟩⟩
        · cases n with
          | zero => omega
          | succ n =>
            simp only [Own] at hown
            obtain ⟨A', g1, g2, g3⟩ := hown m.shared h4
            exact ⟨n + 1, A', g3, Or.inr ⟨h1, h2, g1, g2⟩⟩
      · intro u hu
        refine ⟨fun d => Iff.rfl, fun ⟨d, hd⟩ B hB hBs => ?_⟩
        rcases hst with ⟨rfl, h⟩ | ⟨h1, h2, h3, h4⟩
        · simp only [Own] at hown; exact hB _ _ hBs (hown m.shared).1
        · rw [hd] at h2; cases h2; exact absurd rfl hu
    | acquire l' k =>
      simp only [stepProg]
      cases ht : take t (m.locks l') with
      | none => exact hm
      | some v =>
        simp only
        refine hm.goto hc (m.setLock l' (some v)) k rfl ?_ ?_ ?_
        · intro hl
          rw [locks_setLock] at hl
          by_cases e : l = l'
          · rw [if_pos e] at hl; cases hl
          · rw [if_neg e] at hl; exact hm.free hl
        · by_cases e : l = l'
          · subst e
            rw [locks_setLock, if_pos rfl]
            rcases hst with ⟨rfl, h⟩ | ⟨h1, h2, h3, h4⟩
            · simp only [Own] at hown
              cases hl : m.locks l with
              | none =>
                rw [hl] at ht
                simp only [take, Option.some.injEq] at ht
                subst ht
                exact ⟨1, J, hown.1 (by trivial), Or.inr ⟨by omega, rfl, hJ, hm.free hl⟩⟩
              | some od =>
                obtain ⟨o, d⟩ := od
                rw [hl] at ht
                simp only [take] at ht
                split at ht
                · next e => subst e; exact absurd hl (h d)
                · cases ht
            · cases n with
              | zero => omega
              | succ n =>
                simp only [Own] at hown
                rw [h2] at ht
                simp only [take, if_true, Option.some.injEq] at ht
                subst ht
                exact ⟨n + 2, A, hown.1 (by trivial), Or.inr ⟨by omega, rfl, h3, h4⟩⟩
          · rw [locks_setLock, if_neg e]
            refine ⟨n, A, ?_, hst⟩
            cases n with
            | zero => simp only [Own] at hown; exact hown.2 (Ne.symm e)
            | succ n => simp only [Own] at hown; exact hown.2 (Ne.symm e)
        · intro u hu
          rw [locks_setLock]
          by_cases e : l = l'
          · subst e
            rw [if_pos rfl]
            have hv : ∀ d, m.locks l ≠ some (u, d) := by
              intro d hd
              rw [hd] at ht
              simp only [take, if_neg hu] at ht
              cases ht
            have hv' : ∃ d, v = (t, d) := by
              cases hl : m.locks l with
              | none => rw [hl] at ht; simp only [take, Option.some.injEq] at ht; exact ⟨1, ht.symm⟩
              | some od =>
                obtain ⟨o, d⟩ := od
                rw [hl] at ht
                simp only [take] at ht
                split at ht
                · cases ht; exact ⟨_, rfl⟩
                · cases ht
            obtain ⟨d0, rfl⟩ := hv'
            refine ⟨fun d => ⟨fun h => absurd h (hv d), fun h => ?_⟩, fun ⟨d, h⟩ => absurd h (hv d)⟩
            cases h; exact absurd rfl hu
          · rw [if_neg e]
            exact ⟨fun d => Iff.rfl, fun _ B _ hB => hB⟩
    | release l' k =>
      simp only [stepProg]
      refine hm.goto hc (m.setLock l' (drop t (m.locks l'))) k rfl ?_ ?_ ?_
      · intro hl
        rw [locks_setLock] at hl
        by_cases e : l = l'
        · subst e
          rw [if_pos rfl] at hl
          rcases hst with ⟨rfl, h⟩ | ⟨h1, h2, h3, h4⟩
          · simp only [Own] at hown; exact absurd rfl hown.1
          · match n, h1 with
            | 1, _ => simp only [Own] at hown; exact (hown.1 (by trivial)).1 _ h4
            | n + 2, _ => rw [h2] at hl; simp [drop] at hl
        · rw [if_neg e] at hl; exact hm.free hl
      · by_cases e : l = l'
        · subst e
          rw [locks_setLock, if_pos rfl]
          rcases hst with ⟨rfl, h⟩ | ⟨h1, h2, h3, h4⟩
          · simp only [Own] at hown; exact absurd rfl hown.1
          · match n, h1 with
            | 1, _ =>
              simp only [Own] at hown
              exact ⟨0, fun _ => True, (hown.1 (by trivial)).2, Or.inl ⟨rfl, by rw [h2]; simp [drop]⟩⟩
            | n + 2, _ =>
              simp only [Own] at hown
              exact ⟨n + 1, A, hown.1 (by trivial), Or.inr ⟨by omega, by rw [h2]; simp [drop], h3, h4⟩⟩
        · rw [locks_setLock, if_neg e]
          refine ⟨n, A, ?_, hst⟩
          match n with
          | 0 => simp only [Own] at hown; exact hown.2
          | 1 => simp only [Own] at hown; exact hown.2 (Ne.symm e)
          | n + 2 => simp only [Own] at hown; exact hown.2 (Ne.symm e)
      · intro u hu
        rw [locks_setLock]
        refine ⟨fun d => ?_, fun _ B _ hB => hB⟩
        by_cases e : l = l'
        · subst e
          rw [if_pos rfl]
          rcases hst with ⟨rfl, h⟩ | ⟨h1, h2, h3, h4⟩
          · simp only [Own] at hown; exact absurd rfl hown.1
          · match n, h1 with
            | 1, _ => rw [h2]; simp [drop, Ne.symm hu]
            | n + 2, _ => rw [h2]; simp [drop, Ne.symm hu]
        · rw [if_neg e]

theorem OwnInv.run (hJ : Closed S J) : ∀ (sched : List Nat) (m : State σ α), OwnInv l S J m → OwnInv l S J (Sync.run m sched)
  | [], _, hm => hm
  | t :: ts, m, hm => OwnInv.run hJ ts (Sync.step m t) (hm.step hJ t)

end Verif.Sync
