import Verif.Lemmas.PileSync
import Verif.Model.FlowSync

/-! # Rely-guarantee reasoning about threads -/

set_option linter.unusedSectionVars false
set_option linter.unusedVariables false
set_option linter.unusedSimpArgs false

namespace Verif.Sync

variable {σ α β P : Type}

/-- An assertion that steps of other threads cannot invalidate. -/
def Stable (I : σ → Prop) (R : σ → σ → Prop) (A : σ → Prop) : Prop := ∀ s s', I s → A s → R s s' → A s'

/-- Every step of the program, started where `A` holds, keeps the invariant and is an `R`-step; the result satisfies `Q`. -/
def RG (I : σ → Prop) (R : σ → σ → Prop) (Q : α → σ → Prop) : (σ → Prop) → Prog σ α → Prop
  | A, .ret a => ∀ s, I s → A s → Q a s
  | A, .atomic f k => ∀ s, I s → A s → I (f s) ∧ R s (f s) ∧ ∃ A', Stable I R A' ∧ A' (f s) ∧ RG I R Q A' (k s)
  | A, .acquire _ k => RG I R Q A k
  | A, .release _ k => RG I R Q A k

theorem RG.weaken {I : σ → Prop} {R : σ → σ → Prop} {Q : α → σ → Prop} :
    ∀ (q : Prog σ α) (A A' : σ → Prop), (∀ s, I s → A s → A' s) → RG I R Q A' q → RG I R Q A q := by
  intro q
  induction q with
  | ret b => intro A A' h hq s hi ha; exact hq s hi (h s hi ha)
  | atomic f j ih => intro A A' h hq s hi ha; exact hq s hi (h s hi ha)
  | acquire l j ih => intro A A' h hq; exact ih A A' h hq
  | release l j ih => intro A A' h hq; exact ih A A' h hq

theorem RG.bind {I : σ → Prop} {R : σ → σ → Prop} {Q : β → σ → Prop} {Q' : α → σ → Prop} {k : α → Prog σ β}
    (hs : ∀ a, Stable I R (Q' a)) (hk : ∀ a, RG I R Q (Q' a) (k a)) :
    ∀ (p : Prog σ α) (A : σ → Prop), RG I R Q' A p → RG I R Q A (p.bind k)
  | .ret a, A, hp => by
      simp only [RG] at hp
      simp only [Prog.bind]
      exact RG.weaken (k a) A (Q' a) hp (hk a)
  | .atomic f j, A, hp => by
      simp only [RG] at hp
      simp only [Prog.bind, RG]
      intro s hi ha
      obtain ⟨h1, h2, A', h3, h4, h5⟩ := hp s hi ha
      exact ⟨h1, h2, A', h3, h4, RG.bind hs hk (j s) A' h5⟩
  | .acquire l p, A, hp => by
      simp only [RG] at hp
      simp only [Prog.bind, RG]
      exact RG.bind hs hk p A hp
  | .release l p, A, hp => by
      simp only [RG] at hp
      simp only [Prog.bind, RG]
      exact RG.bind hs hk p A hp

theorem RG.post {I : σ → Prop} {R : σ → σ → Prop} {Q Q' : α → σ → Prop} (h : ∀ a s, I s → Q' a s → Q a s) :
    ∀ (q : Prog σ α) (A : σ → Prop), RG I R Q' A q → RG I R Q A q := by
  intro q
  induction q with
  | ret b => intro A hq s hi ha; exact h b s hi (hq s hi ha)
  | atomic f j ih =>
    intro A hq s hi ha
    obtain ⟨h1, h2, A', h3, h4, h5⟩ := hq s hi ha
    exact ⟨h1, h2, A', h3, h4, ih s A' h5⟩
  | acquire l j ih => intro A hq; exact ih A hq
  | release l j ih => intro A hq; exact ih A hq

theorem RG.withLock {I : σ → Prop} {R : σ → σ → Prop} {Q : α → σ → Prop} (hs : ∀ a, Stable I R (Q a)) {l : Nat} {p : Prog σ α}
    {A : σ → Prop} (hp : RG I R Q A p) : RG I R Q A (withLock l p) := by
  simp only [Sync.withLock, RG]
  refine RG.bind (Q' := Q) hs (fun a => ?_) p A hp
  simp only [Sync.leave, RG]
  exact fun _ _ h => h

theorem RG.act {I : σ → Prop} {R : σ → σ → Prop} {Q : α → σ → Prop} (hs : ∀ a, Stable I R (Q a)) {f : σ → σ × α} {A : σ → Prop}
    (h : ∀ s, I s → A s → I (f s).1 ∧ R s (f s).1 ∧ Q (f s).2 (f s).1) : RG I R Q A (act f) := by
  simp only [Sync.act, RG]
  intro s hi ha
  obtain ⟨h1, h2, h3⟩ := h s hi ha
  exact ⟨h1, h2, Q (f s).2, hs _, h3, fun _ _ h => h⟩

/-- The invariant of a machine all of whose programs are `RG`. -/
structure RGInv (I : σ → Prop) (R : σ → σ → Prop) (Q : Nat → α → σ → Prop) (A0 : σ → Prop) (m : State σ α) : Prop where
  inv : I m.shared
  a0 : A0 m.shared
  cur : ∀ t p, (m.threads t).cur = some p → ∃ A, Stable I R A ∧ A m.shared ∧ RG I R (Q t) A p
  todo : ∀ t, ∀ p ∈ (m.threads t).todo, RG I R (Q t) A0 p
  out : ∀ t, ∀ a ∈ (m.threads t).out, Q t a m.shared

theorem RGInv.step {I : σ → Prop} {R : σ → σ → Prop} {Q : Nat → α → σ → Prop} {A0 : σ → Prop} {m : State σ α}
    (hA0 : Stable I R A0) (hQ : ∀ t a, Stable I R (Q t a)) (hm : RGInv I R Q A0 m) (t : Nat) :
    RGInv I R Q A0 (Sync.step m t) := by
  unfold Sync.step
  cases hc : (m.threads t).cur with
  | none =>
    cases htd : (m.threads t).todo with
    | nil => exact hm
    | cons c cs =>
      have ht := hm.todo t
      rw [htd] at ht
      refine ⟨hm.inv, hm.a0, ?_, ?_, ?_⟩
      · intro u p e
        simp only [startNext, threads_setThread] at e
        by_cases eu : u = t
        · rw [if_pos eu] at e
          simp only [Option.some.injEq] at e
          subst e
          exact ⟨A0, hA0, hm.a0, by rw [eu]; exact ht c (by simp)⟩
        · rw [if_neg eu] at e; exact hm.cur u p e
      · intro u p e
        simp only [startNext, threads_setThread] at e
        by_cases eu : u = t
        · rw [if_pos eu] at e
          rw [eu]
          exact ht p (by simp [show p ∈ cs from e])
        · rw [if_neg eu] at e; exact hm.todo u p e
      · intro u a e
        simp only [startNext, threads_setThread] at e
        by_cases eu : u = t
        · rw [if_pos eu] at e; rw [eu]; exact hm.out t a e
        · rw [if_neg eu] at e; exact hm.out u a e
  | some p =>
    obtain ⟨A, hst, ha, hrg⟩ := hm.cur t p hc
    have move : ∀ (m1 : State σ α) (k : Prog σ α), m1.shared = m.shared → m1.threads = m.threads → RG I R (Q t) A k →
        RGInv I R Q A0 (m1.setThread t ((m.threads t).goto k)) := by
      intro m1 k e1 e2 hk
      refine ⟨by show I m1.shared; rw [e1]; exact hm.inv, by show A0 m1.shared; rw [e1]; exact hm.a0, ?_, ?_, ?_⟩
      · intro u q e
        rw [threads_setThread, e2] at e
        show ∃ A, Stable I R A ∧ A m1.shared ∧ _
        rw [e1]
        by_cases eu : u = t
        · rw [if_pos eu] at e
          simp only [Thread.goto, Option.some.injEq] at e
          subst e
          rw [eu]
          exact ⟨A, hst, ha, hk⟩
        · rw [if_neg eu] at e; exact hm.cur u q e
      · intro u q e
        rw [threads_setThread, e2] at e
        by_cases eu : u = t
        · rw [if_pos eu] at e; rw [eu]; exact hm.todo t q e
        · rw [if_neg eu] at e; exact hm.todo u q e
      · intro u q e
        rw [threads_setThread, e2] at e
        show Q u q m1.shared
        rw [e1]
        by_cases eu : u = t
        · rw [if_pos eu] at e; rw [eu]; exact hm.out t q e
        · rw [if_neg eu] at e; exact hm.out u q e
    cases p with
    | ret a =>
      simp only [RG] at hrg
      refine ⟨hm.inv, hm.a0, ?_, ?_, ?_⟩
      · intro u q e
        simp only [stepProg, threads_setThread] at e
        by_cases eu : u = t
        · rw [if_pos eu] at e; simp at e
        · rw [if_neg eu] at e; exact hm.cur u q e
      · intro u q e
        simp only [stepProg, threads_setThread] at e
        by_cases eu : u = t
        · rw [if_pos eu] at e; rw [eu]; exact hm.todo t q e
        · rw [if_neg eu] at e; exact hm.todo u q e
      · intro u q e
        simp only [stepProg, threads_setThread] at e
        by_cases eu : u = t
        · rw [if_pos eu] at e
          rw [eu]
          rcases List.mem_append.1 e with e | e
          · exact hm.out t q e
          · simp only [List.mem_singleton] at e
            subst e
            exact hrg _ hm.inv ha
        · rw [if_neg eu] at e; exact hm.out u q e
    | atomic f k =>
      simp only [RG] at hrg
      obtain ⟨h1, h2, A', h3, h4, h5⟩ := hrg m.shared hm.inv ha
      refine ⟨h1, hA0 _ _ hm.inv hm.a0 h2, ?_, ?_, ?_⟩
      · intro u q e
        simp only [stepProg, threads_setThread] at e
        by_cases eu : u = t
        · rw [if_pos eu] at e
          simp only [Thread.goto, Option.some.injEq] at e
          subst e
          rw [eu]
          exact ⟨A', h3, h4, h5⟩
        · rw [if_neg eu] at e
          obtain ⟨B, g1, g2, g3⟩ := hm.cur u q e
          exact ⟨B, g1, g1 _ _ hm.inv g2 h2, g3⟩
      · intro u q e
        simp only [stepProg, threads_setThread] at e
        by_cases eu : u = t
        · rw [if_pos eu] at e; rw [eu]; exact hm.todo t q e
        · rw [if_neg eu] at e; exact hm.todo u q e
      · intro u q e
        simp only [stepProg, threads_setThread] at e
        refine hQ u q _ _ hm.inv ?_ h2
        by_cases eu : u = t
        · rw [if_pos eu] at e; rw [eu]; exact hm.out t q e
        · rw [if_neg eu] at e; exact hm.out u q e
    | acquire l k =>
      simp only [RG] at hrg
      simp only [stepProg]
      cases take t (m.locks l) with
      | none => exact hm
      | some w => exact move (m.setLock l (some w)) k rfl rfl hrg
    | release l k =>
      simp only [RG] at hrg
      exact move (m.setLock l _) k rfl rfl hrg

theorem RGInv.run {I : σ → Prop} {R : σ → σ → Prop} {Q : Nat → α → σ → Prop} {A0 : σ → Prop}
    (hA0 : Stable I R A0) (hQ : ∀ t a, Stable I R (Q t a)) (sched : List Nat) :
    ∀ {m : State σ α}, RGInv I R Q A0 m → RGInv I R Q A0 (Sync.run m sched) := by
  induction sched with
  | nil => exact fun hm => hm
  | cons t ts ih => exact fun hm => ih (hm.step hA0 hQ t)

theorem RGInv.init {I : σ → Prop} {R : σ → σ → Prop} {Q : Nat → α → σ → Prop} {A0 : σ → Prop} {s0 : σ} {calls : Nat → List (Prog σ α)}
    (hi : I s0) (h0 : A0 s0) (hc : ∀ t, ∀ p ∈ calls t, RG I R (Q t) A0 p) : RGInv I R Q A0 (Sync.init s0 calls) where
  inv := hi
  a0 := h0
  cur := by intro t p e; simp [Sync.init] at e
  todo := hc
  out := by intro t a e; simp [Sync.init] at e

end Verif.Sync

/-! ## Sequences that may raise -/

namespace Verif.Sync

variable {σ α β P : Type}

/-- The assertion after a step that may raise: `Qm` after a value, `E` after an exception. -/
def okPost (Qm : β → σ → Prop) (E : Prop) : Except Exc β → σ → Prop
  | .ok b, s => Qm b s
  | .error _, _ => E

theorem okPost_stable {I : σ → Prop} {R : σ → σ → Prop} {Qm : β → σ → Prop} {E : Prop} (h : ∀ b, Stable I R (Qm b)) :
    ∀ r, Stable I R (okPost Qm E r) := by
  intro r s s' hi ha hr
  cases r with
  | ok b => exact h b s s' hi ha hr
  | error e => exact ha

theorem RG.andThen {I : σ → Prop} {R : σ → σ → Prop} {Qm : β → σ → Prop} {Q : α → σ → Prop} {E : Prop} {A : σ → Prop}
    {p : Prog σ (Except Exc β)} {k : β → Prog σ (Except Exc α)} (hs : ∀ b, Stable I R (Qm b))
    (hp : RG I R (okPost Qm E) A p) (hk : ∀ b, RG I R (okPost Q E) (Qm b) (k b)) : RG I R (okPost Q E) A (Sync.andThen p k) := by
  refine RG.bind (okPost_stable hs) ?_ p A hp
  intro r
  cases r with
  | ok b => exact hk b
  | error e => exact fun _ _ h => h

theorem RG.mapOk {I : σ → Prop} {R : σ → σ → Prop} {Qm : β → σ → Prop} {Q : Except Exc α → σ → Prop} {E : Prop} {A : σ → Prop}
    {p : Prog σ (Except Exc β)} {f : β → α} (hs : ∀ b, Stable I R (Qm b)) (hp : RG I R (okPost Qm E) A p)
    (hq : ∀ b s, I s → Qm b s → Q (.ok (f b)) s) (he : E → ∀ e s, Q (.error e) s) : RG I R Q A (PileSync.mapOk f p) := by
  refine RG.bind (okPost_stable hs) ?_ p A hp
  intro r
  cases r with
  | ok b => exact fun s hi h => hq b s hi h
  | error e => exact fun s hi h => he h e s

/-- A step that changes nothing. -/
theorem RG.look {I : σ → Prop} {R : σ → σ → Prop} {Q : α → σ → Prop} (hr : ∀ s, R s s) (hs : ∀ a, Stable I R (Q a)) {f : σ → σ × α}
    {A : σ → Prop} (hf : ∀ s, (f s).1 = s) (h : ∀ s, I s → A s → Q (f s).2 s) : RG I R Q A (Sync.act f) := by
  refine RG.act hs (fun s hi ha => ?_)
  rw [hf]
  exact ⟨hi, hr s, h s hi ha⟩

/-- What other threads cannot invalidate and this one does not need is still there afterwards. -/
theorem RG.frame {I : σ → Prop} {R : σ → σ → Prop} {Q : α → σ → Prop} {F : σ → Prop} (hF : Stable I R F) :
    ∀ (p : Prog σ α) (A : σ → Prop), RG I R Q A p → RG I R (fun a s => F s ∧ Q a s) (fun s => F s ∧ A s) p := by
  intro p
  induction p with
  | ret a => exact fun A h s hi ha => ⟨ha.1, h s hi ha.2⟩
  | atomic f k ih =>
    intro A h s hi ha
    obtain ⟨h1, h2, A', h3, h4, h5⟩ := h s hi ha.2
    exact ⟨h1, h2, fun s => F s ∧ A' s, fun s s' hi ha hr => ⟨hF s s' hi ha.1 hr, h3 s s' hi ha.2 hr⟩,
      ⟨hF _ _ hi ha.1 h2, h4⟩, ih s A' h5⟩
  | acquire l k ih => exact fun A h => ih A h
  | release l k ih => exact fun A h => ih A h

theorem RG.frameOk {I : σ → Prop} {R : σ → σ → Prop} {Q : β → σ → Prop} {E : Prop} {F A : σ → Prop} (hF : Stable I R F)
    {p : Prog σ (Except Exc β)} (h : RG I R (okPost Q E) A p) :
    RG I R (okPost (fun b s => F s ∧ Q b s) E) (fun s => F s ∧ A s) p := by
  refine RG.post ?_ p _ (RG.frame hF p A h)
  intro r s _ hr
  cases r with
  | ok b => exact hr
  | error e => exact hr.2

theorem stable_true {I : σ → Prop} {R : σ → σ → Prop} : Stable I R (fun _ => True) := fun _ _ _ _ _ => trivial

end Verif.Sync

/-! ## Iterating over a pile that only grows -/

namespace Verif.PileSync

open Verif.Sync

variable {ι γ δ : Type} [DecidableEq ι] [DecidableEq γ]

/-- Every listed id has an item, stored under its id. -/
structure Backed (p : Pile ι γ δ) : Prop where
  mem : ∀ u ∈ p.order, u ∈ p.items.keys
  ids : ∀ u x, p.items.get? u = some x → x.id = u

/-- Nothing is removed. -/
def Grows (p q : Pile ι γ δ) : Prop := p.order <+: q.order ∧ ∀ u ∈ p.items.keys, u ∈ q.items.keys

theorem Grows.refl (p : Pile ι γ δ) : Grows p p := ⟨List.prefix_refl _, fun _ h => h⟩

theorem stable_key (u : ι) : Stable (σ := Pile ι γ δ) Backed Grows (fun p => u ∈ p.items.keys) := fun _ _ _ ha hr => hr.2 u ha

theorem stable_prefix (l : List ι) : Stable (σ := Pile ι γ δ) Backed Grows (fun p => l <+: p.order) := fun _ _ _ ha hr => ha.trans hr.1

theorem putItem_rg {Q : Unit → Pile ι γ δ → Prop} {A : Pile ι γ δ → Prop} (x : Item ι γ δ) :
    RG Backed Grows (okPost (fun _ p => x.id ∈ p.items.keys) True) A ((whole 0).act (putItem x)) := by
  refine RG.act (okPost_stable (fun _ => stable_key x.id)) (fun p hi ha => ?_)
  simp only [Part.lift, whole, putItem, okPost]
  refine ⟨⟨fun u hu => ?_, fun u y hy => ?_⟩, ⟨List.prefix_refl _, fun u hu => ?_⟩, ?_⟩
  · rw [Dict.mem_keys_set]; exact Or.inr (hi.mem u hu)
  · rw [Dict.get?_set] at hy
    by_cases e : x.id = u
    · rw [if_pos e] at hy; simp only [Option.some.injEq] at hy; rw [← e, hy]
    · rw [if_neg e] at hy; exact hi.ids u y hy
  · rw [Dict.mem_keys_set]; exact Or.inr hu
  · rw [Dict.mem_keys_set]; exact Or.inl rfl

theorem appendId_rg (x : Item ι γ δ) :
    RG Backed Grows (okPost (fun _ _ => True) True) (fun p => x.id ∈ p.items.keys) ((whole 0).act (appendId (ι := ι) (γ := γ) (δ := δ) x)) := by
  refine RG.act (okPost_stable (fun _ => stable_true)) (fun p hi ha => ?_)
  simp only [Part.lift, whole, appendId, okPost, and_true]
  refine ⟨⟨fun u hu => ?_, hi.ids⟩, List.prefix_append _ _, fun _ h => h⟩
  rcases List.mem_append.1 hu with h | h
  · exact hi.mem u h
  · simp only [List.mem_singleton] at h; rw [h]; exact ha

/-- Methods that remove nothing. -/
def Call.keeps : Call ι γ δ → Bool
  | .add _ => true
  | .get _ _ => true
  | .update _ => true
  | .contains _ => true
  | .len => true
  | .index _ => true
  | .remove _ => false
  | .pop _ _ => false
  | .clear => false

theorem read_rg {β : Type} {A : Pile ι γ δ → Prop} (f : Pile ι γ δ → Except Exc β) :
    RG Backed Grows (okPost (fun _ _ => True) True) A ((whole 0).act (PileSync.read f)) := by
  refine RG.look Grows.refl (okPost_stable (fun _ => stable_true)) (fun _ => rfl) (fun s _ _ => ?_)
  cases (Part.lift (whole 0) (PileSync.read f) s).2 <;> simp [okPost]

theorem addCheck_fst (sub : γ → γ → Bool) (a : Pile.Arg ι γ δ) (p : Pile ι γ δ) : (addCheck sub a p).1 = p := by
  cases a with
  | none => rfl
  | some x =>
    simp only [addCheck]
    split
    · rfl
    · split <;> rfl

theorem addCheck_ok {sub : γ → γ → Bool} {a : Pile.Arg ι γ δ} {p : Pile ι γ δ} {x : Item ι γ δ} (h : (addCheck sub a p).2 = .ok x) : a = some x := by
  cases a with
  | none => simp [addCheck] at h
  | some y =>
    simp only [addCheck] at h
    split at h
    · simp at h
    · split at h
      · simp at h
      · simp only [Except.ok.injEq] at h; rw [h]

theorem updateCheck_fst (sub : γ → γ → Bool) (a : Pile.Arg ι γ δ) (p : Pile ι γ δ) : (updateCheck sub a p).1 = p := by
  cases a with
  | none => rfl
  | some x =>
    simp only [updateCheck]
    split
    · rfl
    · split <;> rfl

theorem addCheck_rg {A : Pile ι γ δ → Prop} (sub : γ → γ → Bool) (a : Pile.Arg ι γ δ) :
    RG Backed Grows (okPost (fun _ _ => True) True) A ((whole 0).act (addCheck sub a)) := by
  refine RG.look Grows.refl (okPost_stable (fun _ => stable_true)) (fun p => ?_) (fun s _ _ => ?_)
  · exact addCheck_fst sub a p
  · cases (Part.lift (whole 0) (addCheck sub a) s).2 <;> simp [okPost]

theorem updateCheck_rg {A : Pile ι γ δ → Prop} (sub : γ → γ → Bool) (a : Pile.Arg ι γ δ) :
    RG Backed Grows (okPost (fun _ _ => True) True) A ((whole 0).act (updateCheck sub a)) := by
  refine RG.look Grows.refl (okPost_stable (fun _ => stable_true)) (fun p => ?_) (fun s _ _ => ?_)
  · exact updateCheck_fst sub a p
  · cases (Part.lift (whole 0) (updateCheck sub a) s).2 <;> simp [okPost]

theorem keeps_rg {A : Pile ι γ δ → Prop} (sub : γ → γ → Bool) (c : Call ι γ δ) (hc : c.keeps = true) :
    RG Backed Grows (fun _ _ => True) A (withLock 0 (body (whole 0) sub c)) := by
  refine RG.withLock (fun _ => stable_true) ?_
  cases c with
  | add a =>
    refine RG.mapOk (E := True) (fun _ => stable_true) (RG.andThen (Q := fun _ _ => True) (fun _ => stable_true) (addCheck_rg sub a) (fun x => ?_)) (fun _ _ _ _ => trivial) (fun _ _ _ => trivial)
    exact RG.andThen (fun _ => stable_key x.id) (putItem_rg (Q := fun _ _ => True) x) (fun _ => appendId_rg x)
  | get r d => exact RG.mapOk (E := True) (fun _ => stable_true) (read_rg _) (fun _ _ _ _ => trivial) (fun _ _ _ => trivial)
  | update a =>
    refine RG.mapOk (E := True) (fun _ => stable_true) (RG.andThen (Q := fun _ _ => True) (fun _ => stable_true) (updateCheck_rg sub a) (fun x => ?_)) (fun _ _ _ _ => trivial) (fun _ _ _ => trivial)
    refine RG.post ?_ _ _ (putItem_rg (Q := fun _ _ => True) x)
    intro r s _ _; cases r <;> trivial
  | contains r => exact RG.post (fun _ _ _ _ => trivial) _ _ (read_rg _)
  | len => exact RG.post (fun _ _ _ _ => trivial) _ _ (read_rg _)
  | index i =>
    exact RG.mapOk (E := True) (fun _ => stable_true) (RG.andThen (Q := fun _ _ => True) (fun _ => stable_true) (read_rg _) (fun x => read_rg _)) (fun _ _ _ _ => trivial) (fun _ _ _ => trivial)
  | remove r => simp [Call.keeps] at hc
  | pop r d => simp [Call.keeps] at hc
  | clear => simp [Call.keeps] at hc

/-- What iteration gives while nothing is removed: the first `n` items of the live order, among them those that were there at the beginning. -/
def Seen (o0 : List ι) (n : Nat) (l : List (Item ι γ δ)) (p : Pile ι γ δ) : Prop :=
  l.map Item.id <+: p.order ∧ o0.take n <+: l.map Item.id ∧ l.length ≤ n

theorem stable_seen (o0 : List ι) (n : Nat) (l : List (Item ι γ δ)) : Stable (σ := Pile ι γ δ) Backed Grows (Seen o0 n l) :=
  fun _ _ _ ha hr => ⟨ha.1.trans hr.1, ha.2⟩

/-- What is known when the next id has been looked up. -/
def Looked (o0 : List ι) (acc : List (Item ι γ δ)) (r : Option ι) (p : Pile ι γ δ) : Prop :=
  match r with
  | none => acc.map Item.id <+: p.order ∧ o0 <+: acc.map Item.id
  | some u => acc.map Item.id ++ [u] <+: p.order ∧ o0 <+: p.order

theorem stable_looked (o0 : List ι) (acc : List (Item ι γ δ)) (r : Option ι) : Stable (σ := Pile ι γ δ) Backed Grows (Looked o0 acc r) := by
  intro s s' _ ha hr
  cases r with
  | none => exact ⟨ha.1.trans hr.1, ha.2⟩
  | some u => exact ⟨ha.1.trans hr.1, ha.2.trans hr.1⟩

theorem iterFrom_rg (o0 : List ι) (n : Nat) :
    ∀ (fuel : Nat) (acc : List (Item ι γ δ)), acc.length + fuel = n →
      RG Backed Grows (okPost (Seen o0 n) False) (fun p => acc.map Item.id <+: p.order ∧ o0 <+: p.order) (iterFrom fuel acc.length acc)
  | 0, acc, hn => by
    intro s hi ha
    refine ⟨ha.1, ?_, by omega⟩
    refine List.prefix_of_prefix_length_le ((List.take_prefix _ _).trans ha.2) ha.1 ?_
    simp; omega
  | fuel + 1, acc, hn => by
    refine RG.bind (Q' := Looked o0 acc) (stable_looked o0 acc) ?_ _ _ ?_
    · intro r
      cases r with
      | none =>
        intro s hi ha
        exact ⟨ha.1, (List.take_prefix _ _).trans ha.2, by omega⟩
      | some u =>
        refine RG.andThen (Qm := fun x p => (acc ++ [x]).map Item.id <+: p.order ∧ o0 <+: p.order) ?_ ?_ ?_
        · intro x s s' _ ha hr
          exact ⟨ha.1.trans hr.1, ha.2.trans hr.1⟩
        · refine RG.look Grows.refl (okPost_stable ?_) (fun _ => rfl) ?_
          · intro x s s' _ ha hr
            exact ⟨ha.1.trans hr.1, ha.2.trans hr.1⟩
          · intro s hi ha
            have hu : u ∈ s.items.keys := hi.mem u (ha.1.subset (by simp))
            simp only [yieldItem, itemOf]
            cases hg : s.items.get? u with
            | none => exact absurd hu ((Dict.get?_eq_none_iff _ _).1 hg)
            | some x =>
              have := hi.ids u x hg
              exact ⟨by simpa [this] using ha.1, ha.2⟩
        · intro x
          have := iterFrom_rg o0 n fuel (acc ++ [x]) (by simp; omega)
          simpa using this
    · refine RG.look Grows.refl (stable_looked o0 acc) (fun _ => rfl) ?_
      intro s hi ha
      simp only [idAtPos]
      cases hg : s.order[acc.length]? with
      | none =>
        refine ⟨ha.1, List.prefix_of_prefix_length_le ha.2 ha.1 ?_⟩
        have h1 := List.getElem?_eq_none_iff.1 hg
        have h2 := ha.2.length_le
        simp; omega
      | some u =>
        refine ⟨?_, ha.2⟩
        obtain ⟨rest, hrest⟩ := ha.1
        rw [← hrest, List.getElem?_append_right (by simp)] at hg
        simp only [List.length_map, Nat.sub_self] at hg
        cases rest with
        | nil => simp at hg
        | cons a as =>
          simp only [List.getElem?_cons_zero, Option.some.injEq] at hg
          subst hg
          exact ⟨as, by rw [← hrest]; simp⟩

end Verif.PileSync
