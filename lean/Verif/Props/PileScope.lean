import Verif.Model.PileScope

set_option linter.unusedSectionVars false
set_option linter.unusedSimpArgs false
set_option linter.unusedVariables false

/-!
# C258, C259: `async with pile`
-/

namespace Verif.PileScope

variable {σ ω : Type}

/-! ### Specification: on the sequence of events alone -/

/-- Whether `t` is in the block after an event. -/
def withinStep (t : Nat) (b : Bool) : Ev ω → Bool
  | .entered u => if u = t then true else b
  | .left u => if u = t then false else b
  | _ => b

/-- After these events, `t` has entered the block and not left it. -/
def Within (log : List (Ev ω)) (t : Nat) : Prop := log.foldl (withinStep t) false = true

instance (log : List (Ev ω)) (t : Nat) : Decidable (Within log t) := inferInstanceAs (Decidable (_ = true))

/-- The line of tasks that have begun `async with pile` and are neither in the block nor cancelled. -/
def lineStep (q : List Nat) : Ev ω → List Nat
  | .asked t => q ++ [t]
  | .entered _ => q.tail
  | .gaveUp t => q.erase t
  | _ => q

/-- The line after these events. -/
def Line (log : List (Ev ω)) : List Nat := log.foldl lineStep []

/-- The methods called in these events, one after the other. -/
def replayStep (apply : σ → ω → σ) (p : σ) : Ev ω → σ
  | .did _ o => apply p o
  | _ => p

/-- The pile after these events. -/
def Replay (apply : σ → ω → σ) (p : σ) (log : List (Ev ω)) : σ := log.foldl (replayStep apply) p

/-! ### Invariant -/

/-- The owner that has not resumed. -/
def pendingOwner : Option (Nat × Bool) → List Nat
  | some (t, false) => [t]
  | _ => []

structure Inv (apply : σ → ω → σ) (p0 : σ) (s : Sys σ ω) : Prop where
  within : ∀ t, Within s.log t ↔ s.owner = some (t, true)
  line : Line s.log = pendingOwner s.owner ++ s.waiting
  free : s.owner = none → s.waiting = []
  replay : s.pile = Replay apply p0 s.log
  excl : ∀ q r, s.log = q ++ r → ∀ t u, Within q t → Within q u → t = u
  fifo : ∀ q t r, s.log = q ++ .entered t :: r → (Line q).head? = some t

theorem within_append (log : List (Ev ω)) (e : Ev ω) (t : Nat) :
    Within (log ++ [e]) t ↔ withinStep t (log.foldl (withinStep t) false) e = true := by
  simp [Within, List.foldl_append]

theorem line_append (log : List (Ev ω)) (e : Ev ω) : Line (log ++ [e]) = lineStep (Line log) e := by
  simp [Line, List.foldl_append]

theorem replay_append (apply : σ → ω → σ) (p : σ) (log : List (Ev ω)) (e : Ev ω) :
    Replay apply p (log ++ [e]) = replayStep apply (Replay apply p log) e := by
  simp [Replay, List.foldl_append]

theorem split_snoc {α : Type} {l q r : List α} {e : α} (h : l ++ [e] = q ++ r) : (∃ r', l = q ++ r') ∨ (q = l ++ [e] ∧ r = []) := by
  rcases List.append_eq_append_iff.1 h with ⟨a, h1, h2⟩ | ⟨a, h1, h2⟩
  · cases a with
    | nil => left; exact ⟨[], by simp at h1; simp [h1]⟩
    | cons x xs =>
      cases xs with
      | nil =>
        simp at h2
        right
        refine ⟨?_, h2.2⟩
        rw [h1, h2.1]
      | cons y ys => simp at h2
  · left; exact ⟨a, h1⟩

theorem split_snoc_mid {α : Type} {l q r : List α} {e x : α} (h : l ++ [e] = q ++ x :: r) :
    (∃ r', l = q ++ x :: r') ∨ (q = l ∧ x = e ∧ r = []) := by
  rcases List.eq_nil_or_concat r with hr | ⟨r', y, hr⟩
  · subst hr
    have := List.append_inj' h rfl
    right
    simp at this
    exact ⟨this.1.symm, this.2.symm, rfl⟩
  · left
    subst hr
    have h' : l ++ [e] = (q ++ x :: r') ++ [y] := by rw [h]; simp
    exact ⟨r', (List.append_inj' h' rfl).1⟩

/-- A step that adds one event keeps the parts of the invariant about all earlier moments. -/
theorem excl_snoc {log : List (Ev ω)} {e : Ev ω} (h : ∀ q r, log = q ++ r → ∀ t u, Within q t → Within q u → t = u)
    (hn : ∀ t u, Within (log ++ [e]) t → Within (log ++ [e]) u → t = u) :
    ∀ q r, log ++ [e] = q ++ r → ∀ t u, Within q t → Within q u → t = u := by
  intro q r hq
  rcases split_snoc hq with ⟨r', h'⟩ | ⟨h', _⟩
  · exact h q r' h'
  · rw [h']; exact hn

theorem fifo_snoc {log : List (Ev ω)} {e : Ev ω} (h : ∀ q t r, log = q ++ .entered t :: r → (Line q).head? = some t)
    (hn : ∀ t, e = .entered t → (Line log).head? = some t) :
    ∀ q t r, log ++ [e] = q ++ .entered t :: r → (Line q).head? = some t := by
  intro q t r hq
  rcases split_snoc_mid hq with ⟨r', h'⟩ | ⟨h1, h2, _⟩
  · exact h q t r' h'
  · rw [h1]; exact hn t h2.symm

theorem owner_excl {apply : σ → ω → σ} {p0 : σ} {s : Sys σ ω} (hw : ∀ t, Within s.log t ↔ s.owner = some (t, true)) :
    ∀ t u, Within s.log t → Within s.log u → t = u := by
  intro t u ht hu
  have h1 := (hw t).1 ht
  rw [(hw u).1 hu] at h1
  injection h1 with h1
  injection h1 with h1
  exact h1.symm

theorem within_asked (log : List (Ev ω)) (u t : Nat) : Within (log ++ [.asked u]) t ↔ Within log t := by rw [within_append]; exact Iff.rfl
theorem within_gaveUp (log : List (Ev ω)) (u t : Nat) : Within (log ++ [.gaveUp u]) t ↔ Within log t := by rw [within_append]; exact Iff.rfl
theorem within_refused (log : List (Ev ω)) (u t : Nat) : Within (log ++ [.refused u]) t ↔ Within log t := by rw [within_append]; exact Iff.rfl
theorem within_did (log : List (Ev ω)) (u : Nat) (o : ω) (t : Nat) : Within (log ++ [.did u o]) t ↔ Within log t := by rw [within_append]; exact Iff.rfl

theorem inv_init (apply : σ → ω → σ) (p : σ) : Inv apply p (init p : Sys σ ω) := by
  refine ⟨?_, rfl, fun _ => rfl, rfl, ?_, ?_⟩
  · intro t; simp [Within, init]
  · intro q r h t u ht hu
    have : q = [] := by
      have h' : q ++ r = [] := h.symm
      exact (List.append_eq_nil_iff.1 h').1
    rw [this] at ht
    cases ht
  · intro q t r h
    have h' : q ++ .entered t :: r = [] := h.symm
    simp at h'

theorem inv_release {apply : σ → ω → σ} {p0 : σ} {s : Sys σ ω} {log : List (Ev ω)}
    (hw : ∀ t, ¬ Within log t) (hl : Line log = s.waiting) (hr : s.pile = Replay apply p0 log)
    (he : ∀ q r, log = q ++ r → ∀ t u, Within q t → Within q u → t = u)
    (hf : ∀ q t r, log = q ++ .entered t :: r → (Line q).head? = some t) : Inv apply p0 (release { s with log := log }) := by
  simp only [release]
  cases hwt : s.waiting with
  | nil =>
    refine ⟨fun t => ⟨fun h => absurd h (hw t), nofun⟩, ?_, fun _ => rfl, hr, he, hf⟩
    simp only [pendingOwner]; rw [hl, hwt]; rfl
  | cons u us =>
    refine ⟨fun t => ⟨fun h => absurd h (hw t), nofun⟩, ?_, nofun, hr, he, hf⟩
    simp only [pendingOwner]; rw [hl, hwt]; rfl

theorem inv_step {apply : σ → ω → σ} {p0 : σ} {s : Sys σ ω} (h : Inv apply p0 s) (a : Act ω) : Inv apply p0 (step apply s a) := by
  cases a with
  | enter t =>
    simp only [step]
    split
    · exact h
    · rename_i hs
      simp only [acquire]
      split
      · rename_i ho
        have hw : ∀ u, Within (s.log ++ [.asked t]) u ↔ (some (t, false) : Option (Nat × Bool)) = some (u, true) := by
          intro u
          rw [within_asked s.log, h.within u, ho]
          constructor <;> (intro h'; simp at h')
        refine ⟨hw, ?_, nofun, ?_, excl_snoc h.excl ?_, fifo_snoc h.fifo nofun⟩
        · show Line (s.log ++ [.asked t]) = _
          rw [line_append, h.line, ho, h.free ho]; rfl
        · show s.pile = _
          rw [replay_append, ← h.replay]; rfl
        · intro a b ha hb
          have := (hw a).1 ha
          simp at this
      · rename_i u b ho
        split
        · rename_i hu
          have hw : ∀ v, Within (s.log ++ [.refused t]) v ↔ s.owner = some (v, true) := by
            intro v
            rw [within_refused s.log, h.within v]
          refine ⟨hw, ?_, h.free, ?_, excl_snoc h.excl ?_, fifo_snoc h.fifo nofun⟩
          · show Line (s.log ++ [.refused t]) = _
            rw [line_append, h.line]; rfl
          · show s.pile = _
            rw [replay_append, ← h.replay]; rfl
          · intro a b ha hb
            rw [within_refused s.log] at ha hb
            exact owner_excl (apply := apply) (p0 := p0) h.within a b ha hb
        · have hw : ∀ v, Within (s.log ++ [.asked t]) v ↔ s.owner = some (v, true) := by
            intro v
            rw [within_asked s.log, h.within v]
          refine ⟨hw, ?_, ?_, ?_, excl_snoc h.excl ?_, fifo_snoc h.fifo nofun⟩
          · show Line (s.log ++ [.asked t]) = _
            rw [line_append, h.line]
            simp [lineStep]
          · intro hn; rw [ho] at hn; cases hn
          · show s.pile = _
            rw [replay_append, ← h.replay]; rfl
          · intro a b ha hb
            rw [within_asked s.log] at ha hb
            exact owner_excl (apply := apply) (p0 := p0) h.within a b ha hb
  | resume t =>
    simp only [step]
    split
    · rename_i ho
      have hw : ∀ u, Within (s.log ++ [.entered t]) u ↔ (some (t, true) : Option (Nat × Bool)) = some (u, true) := by
        intro u
        rw [within_append]
        simp only [withinStep]
        by_cases hu : t = u
        · simp [hu]
        · rw [if_neg hu]
          have := h.within u
          unfold Within at this
          rw [this, ho]
          simp [hu]
      refine ⟨hw, ?_, nofun, ?_, excl_snoc h.excl ?_, fifo_snoc h.fifo ?_⟩
      · show Line (s.log ++ [.entered t]) = _
        rw [line_append, h.line, ho]; rfl
      · show s.pile = _
        rw [replay_append, ← h.replay]; rfl
      · intro a b ha hb
        have h1 := (hw a).1 ha
        have h2 := (hw b).1 hb
        simp at h1 h2
        rw [← h1, ← h2]
      · intro u hu
        injection hu with hu
        rw [h.line, ho, hu]; rfl
    · exact h
  | exit t =>
    simp only [step]
    split
    · rename_i ho
      have hn : ∀ u, ¬ Within (s.log ++ [.left t]) u := by
        intro u hu
        rw [within_append] at hu
        simp only [withinStep] at hu
        by_cases he : t = u
        · simp [he] at hu
        · rw [if_neg he] at hu
          have h1 := (h.within u).1 hu
          rw [ho] at h1
          simp at h1
          exact he h1
      have hl : Line (s.log ++ [.left t]) = s.waiting := by
        rw [line_append, h.line, ho]; rfl
      have hrp : s.pile = Replay apply p0 (s.log ++ [.left t]) := by
        rw [replay_append, ← h.replay]; rfl
      exact inv_release (s := s) hn hl hrp (excl_snoc h.excl (fun a b ha _ => absurd ha (hn a))) (fifo_snoc h.fifo nofun)
    · exact h
  | cancel t =>
    simp only [step]
    split
    · rename_i ho
      have hn : ∀ u, ¬ Within (s.log ++ [.gaveUp t]) u := by
        intro u hu
        rw [within_gaveUp s.log] at hu
        have h1 := (h.within u).1 hu
        rw [ho] at h1
        simp at h1
      have hl : Line (s.log ++ [.gaveUp t]) = s.waiting := by
        rw [line_append, h.line, ho]
        simp [lineStep, pendingOwner]
      have hrp : s.pile = Replay apply p0 (s.log ++ [.gaveUp t]) := by
        rw [replay_append, ← h.replay]; rfl
      exact inv_release (s := s) hn hl hrp (excl_snoc h.excl (fun a b ha _ => absurd ha (hn a))) (fifo_snoc h.fifo nofun)
    · rename_i ho
      split
      · rename_i hc
        have hw : ∀ v, Within (s.log ++ [.gaveUp t]) v ↔ s.owner = some (v, true) := by
          intro v
          rw [within_gaveUp s.log, h.within v]
        have hm : t ∈ s.waiting := by simpa using hc
        refine ⟨hw, ?_, ?_, ?_, excl_snoc h.excl ?_, fifo_snoc h.fifo nofun⟩
        · show Line (s.log ++ [.gaveUp t]) = _
          rw [line_append, h.line]
          have hp : t ∉ pendingOwner s.owner := by
            intro hm'
            cases hown : s.owner with
            | none => rw [hown] at hm'; cases hm'
            | some ub =>
              obtain ⟨u, b⟩ := ub
              rw [hown] at hm'
              cases b with
              | true => cases hm'
              | false =>
                simp [pendingOwner] at hm'
                exact ho (by rw [hown, hm'])
          simp only [lineStep]
          rw [List.erase_append_right _ hp]
        · intro hn
          rw [h.free hn] at hm
          cases hm
        · show s.pile = _
          rw [replay_append, ← h.replay]; rfl
        · intro a b ha hb
          rw [within_gaveUp s.log] at ha hb
          exact owner_excl (apply := apply) (p0 := p0) h.within a b ha hb
      · exact h
  | call t o =>
    simp only [step]
    split
    · exact h
    · have hw : ∀ v, Within (s.log ++ [.did t o]) v ↔ s.owner = some (v, true) := by
        intro v
        rw [within_did s.log, h.within v]
      refine ⟨hw, ?_, h.free, ?_, excl_snoc h.excl ?_, fifo_snoc h.fifo nofun⟩
      · show Line (s.log ++ [.did t o]) = _
        rw [line_append, h.line]; rfl
      · show apply s.pile o = _
        rw [replay_append, ← h.replay]; rfl
      · intro a b ha hb
        rw [within_did s.log] at ha hb
        exact owner_excl (apply := apply) (p0 := p0) h.within a b ha hb

theorem inv_run {apply : σ → ω → σ} {p0 : σ} (as : List (Act ω)) {s : Sys σ ω} (h : Inv apply p0 s) : Inv apply p0 (run apply s as) := by
  induction as generalizing s with
  | nil => exact h
  | cons a as ih => exact ih (inv_step h a)

/-- The task that owns the lock. -/
def holders : Option (Nat × Bool) → List Nat
  | some (t, _) => [t]
  | none => []

theorem once_release {s : Sys σ ω} (h : s.waiting.Nodup) : (holders (release s).owner ++ (release s).waiting).Nodup := by
  simp only [release]
  split
  · rename_i hw; simp [holders, hw]
  · rename_i u us hw
    rw [hw] at h
    exact h

theorem once_step (apply : σ → ω → σ) {s : Sys σ ω} (h : (holders s.owner ++ s.waiting).Nodup) (a : Act ω) :
    (holders (step apply s a).owner ++ (step apply s a).waiting).Nodup := by
  have hw : s.waiting.Nodup := (List.nodup_append.1 h).2.1
  cases a with
  | enter t =>
    simp only [step]
    split
    · exact h
    · rename_i hs
      have hs' : t ∉ s.waiting := fun hm => hs (by simp [suspended, hm])
      simp only [acquire]
      split
      · exact List.nodup_cons.2 ⟨hs', hw⟩
      · rename_i u b ho
        split
        · exact h
        · rename_i hu
          rw [ho] at h ⊢
          have hh : (u :: s.waiting).Nodup := h
          show (u :: (s.waiting ++ [t])).Nodup
          rw [List.nodup_cons] at hh ⊢
          refine ⟨?_, ?_⟩
          · intro hm
            rcases List.mem_append.1 hm with hm | hm
            · exact hh.1 hm
            · exact hu (List.mem_singleton.1 hm)
          · rw [List.nodup_append]
            refine ⟨hw, by simp, ?_⟩
            intro x hx y hy hxy
            rw [List.mem_singleton.1 hy] at hxy
            exact hs' (hxy ▸ hx)
  | resume t =>
    simp only [step]
    split
    · rename_i ho
      rw [ho] at h
      exact h
    · exact h
  | exit t =>
    simp only [step]
    split
    · exact once_release (s := { s with log := _ }) hw
    · exact h
  | cancel t =>
    simp only [step]
    split
    · exact once_release (s := { s with log := _ }) hw
    · split
      · exact h.sublist (List.Sublist.append (List.Sublist.refl _) List.erase_sublist)
      · exact h
  | call t o =>
    simp only [step]
    split <;> exact h

theorem once_run (apply : σ → ω → σ) (as : List (Act ω)) {s : Sys σ ω} (h : (holders s.owner ++ s.waiting).Nodup) :
    (holders (run apply s as).owner ++ (run apply s as).waiting).Nodup := by
  induction as generalizing s with
  | nil => exact h
  | cons a as ih => exact ih (once_step apply h a)

/-! ### C258 -/

/-- **C258** (one at a time).  Whatever the tasks do and however they are scheduled or cancelled, at no moment are two tasks in the block. -/
theorem C258_exclusive (apply : σ → ω → σ) (p : σ) (as : List (Act ω)) (q r : List (Ev ω)) (h : (run apply (init p) as).log = q ++ r) (t u : Nat)
    (ht : Within q t) (hu : Within q u) : t = u := (inv_run as (inv_init apply p)).excl q r h t u ht hu

/-- **C258** (in turn).  A task that enters is the first in the line of those that asked before it and did not give up. -/
theorem C258_in_turn (apply : σ → ω → σ) (p : σ) (as : List (Act ω)) (q r : List (Ev ω)) (t : Nat)
    (h : (run apply (init p) as).log = q ++ .entered t :: r) : (Line q).head? = some t := (inv_run as (inv_init apply p)).fifo q t r h

/-- **C258** (nobody waits for nobody).  At every moment, if no task is in the block and the line is not empty, its first task enters as soon as it is
scheduled. -/
theorem C258_progress (apply : σ → ω → σ) (p : σ) (as : List (Act ω)) (t : Nat) (l : List Nat) (hn : ∀ u, ¬ Within (run apply (init p) as).log u)
    (hl : Line (run apply (init p) as).log = t :: l) :
    (run apply (init p) (as ++ [.resume t])).log = (run apply (init p) as).log ++ [.entered t] := by
  have hi := inv_run as (inv_init apply p)
  have ho : (run apply (init p) as).owner = some (t, false) := by
    cases hown : (run apply (init p) as).owner with
    | none =>
      have h1 := hi.line
      rw [hown, hi.free hown, hl] at h1
      cases h1
    | some ub =>
      obtain ⟨u, b⟩ := ub
      cases b with
      | true => exact absurd ((hi.within u).2 hown) (hn u)
      | false =>
        have h1 := hi.line
        rw [hown, hl] at h1
        simp [pendingOwner] at h1
        rw [h1.1]
  have hr : run apply (init p) (as ++ [.resume t]) = step apply (run apply (init p) as) (.resume t) := by
    simp [run, List.foldl_append]
  rw [hr]
  simp only [step, if_pos ho]

/-- **C258** (no nesting).  A task in the block that begins `async with pile` again gets RuntimeError; it stays in the block, nothing else happens. -/
theorem C258_no_nesting (apply : σ → ω → σ) (p : σ) (as : List (Act ω)) (t : Nat) (ht : Within (run apply (init p) as).log t) :
    run apply (init p) (as ++ [.enter t]) = { run apply (init p) as with log := (run apply (init p) as).log ++ [.refused t] } := by
  have hi := inv_run as (inv_init apply p)
  have ho := (hi.within t).1 ht
  have hs : suspended (run apply (init p) as) t = false := by
    have hn : (holders (run apply (init p) as).owner ++ (run apply (init p) as).waiting).Nodup :=
      once_run apply as (s := init p) (List.nodup_nil)
    rw [ho] at hn
    have hw : t ∉ (run apply (init p) as).waiting := (List.nodup_cons.1 hn).1
    simp [suspended, ho, hw]
  have hr : run apply (init p) (as ++ [.enter t]) = step apply (run apply (init p) as) (.enter t) := by
    simp [run, List.foldl_append]
  rw [hr]
  simp only [step, hs, acquire, ho]
  simp

/-- **C258** (asking).  A task that is neither in the block nor in the line and begins `async with pile` joins the line at its end; one that is in
the line already is suspended and can begin nothing. -/
theorem C258_asks (apply : σ → ω → σ) (p : σ) (as : List (Act ω)) (t : Nat) :
    (¬ Within (run apply (init p) as).log t → t ∉ Line (run apply (init p) as).log →
      (run apply (init p) (as ++ [.enter t])).log = (run apply (init p) as).log ++ [.asked t] ∧
      Line (run apply (init p) (as ++ [.enter t])).log = Line (run apply (init p) as).log ++ [t]) ∧
    (t ∈ Line (run apply (init p) as).log → ∀ o, run apply (init p) (as ++ [.enter t]) = run apply (init p) as ∧
      run apply (init p) (as ++ [.call t o]) = run apply (init p) as) := by
  have hi := inv_run as (inv_init apply p)
  have hr : ∀ a, run apply (init p) (as ++ [a]) = step apply (run apply (init p) as) a := by intro a; simp [run, List.foldl_append]
  rw [hr]
  generalize run apply (init p) as = s at *
  have hs : suspended s t = true ↔ t ∈ Line s.log := by
    rw [hi.line]
    cases ho : s.owner with
    | none => simp [suspended, ho, pendingOwner]
    | some w =>
      obtain ⟨u, b⟩ := w
      cases b with
      | true => simp [suspended, ho, pendingOwner]
      | false =>
        simp only [suspended, ho, pendingOwner, Bool.or_eq_true, decide_eq_true_eq, Option.some.injEq, Prod.mk.injEq, and_true, List.contains_iff_mem,
          List.cons_append, List.nil_append, List.mem_cons]
        rw [show (u = t ↔ t = u) from eq_comm]
  constructor
  · intro hw hl
    have hns : suspended s t = false := by
      cases h : suspended s t with
      | false => rfl
      | true => exact absurd (hs.1 h) hl
    have hlog : (step apply s (.enter t)).log = s.log ++ [.asked t] := by
      simp only [step, hns, acquire]
      cases ho : s.owner with
      | none => rfl
      | some w =>
        obtain ⟨u, b⟩ := w
        have hu : u ≠ t := by
          rintro rfl
          cases b with
          | true => exact hw ((hi.within u).2 ho)
          | false => exact hl (by rw [hi.line, ho]; simp [pendingOwner])
        simp [hu]
    refine ⟨hlog, ?_⟩
    rw [hlog, line_append]
    rfl
  · intro hl o
    rw [hr]
    simp [step, hs.2 hl]

/-- **C258** (exit hands over).  When the task in the block leaves it, the next in line — and if the line is empty, any task that then asks — can enter. -/
theorem C258_handover (apply : σ → ω → σ) (p : σ) (as : List (Act ω)) (t u : Nat) (l : List Nat) (ht : Within (run apply (init p) as).log t)
    (hl : Line (run apply (init p) as).log = u :: l) :
    (run apply (init p) (as ++ [.exit t, .resume u])).log = (run apply (init p) as).log ++ [.left t, .entered u] := by
  have hi := inv_run as (inv_init apply p)
  have ho := (hi.within t).1 ht
  have h1 : (run apply (init p) (as ++ [.exit t])).log = (run apply (init p) as).log ++ [.left t] := by
    have hr : run apply (init p) (as ++ [.exit t]) = step apply (run apply (init p) as) (.exit t) := by simp [run, List.foldl_append]
    rw [hr]
    simp only [step, if_pos ho, release]
    split <;> rfl
  have hi2 := inv_run (as ++ [.exit t]) (inv_init apply p)
  have h2 := C258_progress apply p (as ++ [.exit t]) u l ?_ ?_
  · rw [List.append_assoc] at h2
    have h2' : (run apply (init p) (as ++ [.exit t, .resume u])).log = (run apply (init p) (as ++ [.exit t])).log ++ [.entered u] := h2
    rw [h2', h1]; simp
  · intro v hv
    rw [h1, within_append] at hv
    simp only [withinStep] at hv
    by_cases he : t = v
    · simp [he] at hv
    · rw [if_neg he] at hv
      have h3 := (hi.within v).1 hv
      rw [ho] at h3
      simp at h3
      exact he h3
  · rw [h1, line_append, hl]; rfl

/-! ### C259 -/

theorem within_stays {log : List (Ev ω)} {t : Nat} {q : List (Ev ω)} (h : Within log t) (hq : Ev.left t ∉ q) : Within (log ++ q) t := by
  induction q generalizing log with
  | nil => simpa using h
  | cons e q ih =>
    have he : Within (log ++ [e]) t := by
      rw [within_append]
      cases e with
      | entered u =>
        simp only [withinStep]
        split
        · rfl
        · exact h
      | left u =>
        have : u ≠ t := fun hu => hq (by rw [hu]; exact List.mem_cons_self)
        simp only [withinStep, if_neg this]
        exact h
      | asked u => exact h
      | gaveUp u => exact h
      | refused u => exact h
      | did u o => exact h
    have := ih he (fun hm => hq (List.mem_cons_of_mem _ hm))
    rwa [List.append_assoc] at this

theorem within_entered (log : List (Ev ω)) (t : Nat) : Within (log ++ [.entered t]) t := by
  rw [within_append]; simp [withinStep]

/-- **C259**, exactly.  While `t` is in the block, every call of a method of the pile is made by `t` if and only if every such call is made by a task in
its own block: the block protects against tasks that also use `async with pile`, and against no others. -/
theorem C259_exact_partial (apply : σ → ω → σ) (p : σ) (as : List (Act ω)) (q r : List (Ev ω)) (t : Nat)
    (h : (run apply (init p) as).log = q ++ .entered t :: r) (hr : Ev.left t ∉ r) :
    (∀ u o, Ev.did u o ∈ r → u = t) ↔ ∀ r1 u o r2, r = r1 ++ .did u o :: r2 → Within (q ++ .entered t :: r1) u := by
  constructor
  · intro ha r1 u o r2 he
    rw [ha u o (by rw [he]; simp)]
    have := within_stays (within_entered q t) (q := r1) (fun hm => hr (by rw [he]; exact List.mem_append_left _ hm))
    simpa using this
  · intro ha u o hm
    rcases List.append_of_mem hm with ⟨r1, r2, he⟩
    have h1 := ha r1 u o r2 he
    have h2 : Within (q ++ .entered t :: r1) t := by
      have := within_stays (within_entered q t) (q := r1) (fun hm => hr (by rw [he]; exact List.mem_append_left _ hm))
      simpa using this
    refine C258_exclusive apply p as (q ++ .entered t :: r1) (.did u o :: r2) ?_ u t h1 h2
    rw [h, he]; simp

/-- **C259** (partial).  If all calls made meanwhile come from tasks in their own block, the pile is, during the block of `t`, what it was at the entry
followed by the calls of `t`. -/
theorem C259_stable_partial (apply : σ → ω → σ) (p : σ) (as : List (Act ω)) (q r : List (Ev ω)) (t : Nat)
    (h : (run apply (init p) as).log = q ++ .entered t :: r) (hr : Ev.left t ∉ r)
    (hd : ∀ r1 u o r2, r = r1 ++ .did u o :: r2 → Within (q ++ .entered t :: r1) u) :
    (∀ u o, Ev.did u o ∈ r → u = t) ∧ (run apply (init p) as).pile = Replay apply (Replay apply p q) r := by
  refine ⟨(C259_exact_partial apply p as q r t h hr).2 hd, ?_⟩
  rw [(inv_run as (inv_init apply p)).replay, h]
  simp [Replay, List.foldl_append, replayStep]

/-- **C259 is refuted**: task 2 calls a method without `async with pile` while task 1 is in the block; the pile changes under task 1. -/
theorem C259_violation :
    (run (fun l x => l ++ [x]) (init []) [.enter 1, .resume 1, .call 1 10, .call 2 20, .call 1 11]).pile = [10, 20, 11] ∧
    Within (run (fun l x => l ++ [x]) (init []) [.enter 1, .resume 1, .call 1 10, .call 2 20, .call 1 11]).log 1 := by
  refine ⟨by decide, by decide⟩

/-- Three tasks: the second gives up while waiting, the third enters when the first has left. -/
def sampleActs : List (Act Nat) :=
  [.enter 1, .resume 1, .enter 2, .enter 3, .call 1 10, .cancel 2, .exit 1, .resume 3, .call 3 30]

example : (run (fun l x => l ++ [x]) (init []) sampleActs).log =
    [.asked 1, .entered 1, .asked 2, .asked 3, .did 1 10, .gaveUp 2, .left 1, .entered 3, .did 3 30] := by decide
example : Within (run (fun l x => l ++ [x]) (init []) (sampleActs.take 6)).log 1 ∧
    Line (run (fun l x => l ++ [x]) (init []) (sampleActs.take 6)).log = [3] := by decide
/-- A task cancelled when the lock has already been handed to it passes it on. -/
example : (run (fun (l : List Nat) x => l ++ [x]) (init []) [.enter 1, .resume 1, .enter 2, .enter 3, .exit 1, .cancel 2, .resume 3]).log =
    [.asked 1, .entered 1, .asked 2, .asked 3, .left 1, .gaveUp 2, .entered 3] := by decide

end Verif.PileScope
