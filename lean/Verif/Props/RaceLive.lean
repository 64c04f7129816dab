import Verif.Model.RaceLive

/-! # C319: `race` leaves nothing behind

The history alone is the specification: which awaitables ended, in which order, whether the caller was cancelled, and when the call ended. -/

set_option linter.unusedSectionVars false
set_option linter.unusedSimpArgs false
set_option linter.unusedVariables false

namespace Verif.RaceLive

open Verif.Fanout (Outcome)

/-- Specification: the awaitable that ends here and its outcome. -/
def ending : Op → Option (Nat × Outcome)
  | .finish i o => some (i, o)
  | _ => none

/-- Specification: the awaitables that have ended, with their outcomes, in order. -/
def endings (h : List Op) : List (Nat × Outcome) := h.filterMap ending

/-- What holds after every history. -/
structure Inv (n : Nat) (h : List Op) (s : State) : Prop where
  runs : ∀ i, s.phase i = .running ↔ i ∉ (endings h).map Prod.fst
  known : ∀ i ∈ (endings h).map Prod.fst, i < n
  once : ((endings h).map Prod.fst).Nodup
  left : s.left = true ↔ Op.leave ∈ h
  outside : s.outside = true ↔ Op.outside ∈ h
  got : s.got.isSome = true ↔ Op.recv ∈ h
  quiet : s.left = true → cancelled s = true ∧ ∀ i, i < n → s.phase i = .ended
  open_ : cancelled s = false → s.offers = endings h
  first : ∀ x, s.got = some x → (endings h).head? = some x

theorem init_inv (n : Nat) : Inv n [] {} := by
  constructor <;> simp [endings, cancelled]

theorem allEnded_iff (n : Nat) (s : State) : allEnded n s = true ↔ ∀ i, i < n → s.phase i = .ended := by
  simp [allEnded]

theorem endings_snoc (h : List Op) (o : Op) : endings (h ++ [o]) = endings h ++ (ending o).toList := by
  simp only [endings, List.filterMap_append]
  cases o <;> rfl

theorem endings_other {o : Op} (e : ending o = none) (h : List Op) : endings (h ++ [o]) = endings h := by
  rw [endings_snoc, e]; simp

theorem upd_running {s : State} {k i : Nat} {p : Phase} (hp : p ≠ .running) : upd s.phase k p i = .running ↔ i ≠ k ∧ s.phase i = .running := by
  unfold upd
  by_cases c : i = k
  · rw [if_pos c]; simp [c, hp]
  · rw [if_neg c]; simp [c]

theorem cancelled_iff (s : State) : cancelled s = true ↔ s.got.isSome = true ∨ s.outside = true := by
  simp [cancelled]

theorem step_inv {n : Nat} {h : List Op} {s t : State} {o : Op} (v : Inv n h s) (e : step n s o = some t) : Inv n (h ++ [o]) t := by
  cases o with
  | finish i o =>
    simp only [step] at e
    by_cases c : i < n ∧ s.phase i = .running
    · rw [if_pos c] at e
      have nl : s.left = false := by
        cases hl : s.left with
        | false => rfl
        | true => have := (v.quiet hl).2 i c.1; rw [c.2] at this; cases this
      have he : endings (h ++ [.finish i o]) = endings h ++ [(i, o)] := by rw [endings_snoc]; rfl
      have hm : (endings (h ++ [.finish i o])).map Prod.fst = (endings h).map Prod.fst ++ [i] := by rw [he]; simp
      have fresh := (v.runs i).mp c.2
      have hruns : ∀ p : Phase, p ≠ .running → ∀ j, upd s.phase i p j = .running ↔ j ∉ (endings (h ++ [.finish i o])).map Prod.fst := by
        intro p hp j
        rw [upd_running hp, v.runs j, hm]
        simp only [List.mem_append, List.mem_singleton, not_or]
        exact And.comm
      have hknown : ∀ j ∈ (endings (h ++ [.finish i o])).map Prod.fst, j < n := by
        rw [hm]; intro j hj
        rcases List.mem_append.mp hj with a | a
        · exact v.known j a
        · rw [List.mem_singleton.mp a]; exact c.1
      have honce : ((endings (h ++ [.finish i o])).map Prod.fst).Nodup := by
        rw [hm]; exact List.nodup_append.mpr ⟨v.once, by simp, by rintro a ha b hb rfl; rw [List.mem_singleton.mp hb] at ha; exact fresh ha⟩
      have hfirst : ∀ x, s.got = some x → (endings (h ++ [.finish i o])).head? = some x := by
        intro x hx
        rw [he, List.head?_append, v.first x hx]; rfl
      by_cases d : cancelled s = true
      · simp only [finish] at e; rw [if_pos d] at e; cases e
        exact {
          runs := hruns .ended (by simp)
          known := hknown
          once := honce
          left := by have := v.left; simp [this]
          outside := by have := v.outside; simp [this]
          got := by have := v.got; simp [this]
          quiet := by intro hl; rw [nl] at hl; cases hl
          open_ := by intro hc; have : cancelled s = false := hc; rw [d] at this; cases this
          first := hfirst }
      · simp only [finish] at e; rw [if_neg d] at e; cases e
        exact {
          runs := hruns .offering (by simp)
          known := hknown
          once := honce
          left := by have := v.left; simp [this]
          outside := by have := v.outside; simp [this]
          got := by have := v.got; simp [this]
          quiet := by intro hl; rw [nl] at hl; cases hl
          open_ := by intro hc; rw [he]; show s.offers ++ _ = _; rw [v.open_ hc]
          first := hfirst }
    · rw [if_neg c] at e; cases e
  | done i =>
    simp only [step] at e
    by_cases c : i < n ∧ s.phase i = .offering ∧ cancelled s = true
    · rw [if_pos c] at e
      have nl : s.left = false := by
        cases hl : s.left with
        | false => rfl
        | true => have := (v.quiet hl).2 i c.1; rw [c.2.1] at this; cases this
      have he : endings (h ++ [.done i]) = endings h := endings_other rfl h
      cases e
      exact {
        runs := by
          intro j; rw [he]; show upd s.phase i .ended j = _ ↔ _
          rw [upd_running (by simp), ← v.runs j]
          refine ⟨fun a => a.2, fun a => ⟨?_, a⟩⟩
          rintro rfl; rw [c.2.1] at a; cases a
        known := by rw [he]; exact v.known
        once := by rw [he]; exact v.once
        left := by have := v.left; simp [this]
        outside := by have := v.outside; simp [this]
        got := by have := v.got; simp [this]
        quiet := by intro hl; rw [nl] at hl; cases hl
        open_ := by intro hc; have : cancelled s = false := hc; rw [c.2.2] at this; cases this
        first := by rw [he]; exact v.first }
    · rw [if_neg c] at e; cases e
  | recv =>
    simp only [step, recv] at e
    by_cases c : cancelled s = true
    · rw [if_pos c] at e; cases e
    · rw [if_neg c] at e
      have c' : cancelled s = false := by simpa using c
      have he : endings (h ++ [.recv]) = endings h := endings_other rfl h
      obtain ⟨x, hx, rfl⟩ := Option.map_eq_some_iff.mp e
      exact {
        runs := by rw [he]; exact v.runs
        known := by rw [he]; exact v.known
        once := by rw [he]; exact v.once
        left := by have := v.left; simp [this]
        outside := by have := v.outside; simp [this]
        got := by simp
        quiet := by intro hl; have := (v.quiet hl).1; rw [c'] at this; cases this
        open_ := by intro hc; simp [cancelled] at hc
        first := by
          intro y hy
          rw [he, ← v.open_ c']
          cases hy; exact hx }
  | outside =>
    simp only [step] at e
    by_cases c : s.left = true
    · rw [if_pos c] at e; cases e
    · rw [if_neg c] at e; cases e
      have he : endings (h ++ [.outside]) = endings h := endings_other rfl h
      exact {
        runs := by rw [he]; exact v.runs
        known := by rw [he]; exact v.known
        once := by rw [he]; exact v.once
        left := by have := v.left; simp [this]
        outside := by simp
        got := by have := v.got; simp [this]
        quiet := by intro hl; exact absurd hl c
        open_ := by intro hc; simp [cancelled] at hc
        first := by rw [he]; exact v.first }
  | leave =>
    simp only [step] at e
    by_cases c : s.left = false ∧ cancelled s = true ∧ allEnded n s = true
    · rw [if_pos c] at e; cases e
      have he : endings (h ++ [.leave]) = endings h := endings_other rfl h
      exact {
        runs := by rw [he]; exact v.runs
        known := by rw [he]; exact v.known
        once := by rw [he]; exact v.once
        left := by simp
        outside := by have := v.outside; simp [this]
        got := by have := v.got; simp [this]
        quiet := by intro _; exact ⟨c.2.1, (allEnded_iff n s).mp c.2.2⟩
        open_ := by intro hc; have : cancelled s = false := hc; rw [c.2.1] at this; cases this
        first := by rw [he]; exact v.first }
    · rw [if_neg c] at e; cases e

theorem run_append (n : Nat) (a b : List Op) (s : State) : run n s (a ++ b) = (run n s a).bind fun t => run n t b := by
  induction a generalizing s with
  | nil => rfl
  | cons o a ih => simp only [List.cons_append, run]; cases step n s o with
    | none => rfl
    | some t => exact ih t

theorem run_inv {n : Nat} (h : List Op) {s : State} (e : run n {} h = some s) : Inv n h s := by
  have key : ∀ (l p : List Op) (s t : State), Inv n p s → run n s l = some t → Inv n (p ++ l) t := by
    intro l
    induction l with
    | nil => intro p s t v e; cases e; simpa using v
    | cons op l ih =>
      intro p s t v e
      simp only [run, Option.bind_eq_some_iff] at e
      obtain ⟨u, hu, e⟩ := e
      simpa using ih (p ++ [op]) u t (step_inv v hu) e
  simpa using key h [] {} s (init_inv n) e

/-- Once the block has been left nothing can happen. -/
theorem stopped {n : Nat} {h : List Op} {s : State} (v : Inv n h s) (hl : s.left = true) (o : Op) : step n s o = none := by
  obtain ⟨hc, hall⟩ := v.quiet hl
  cases o with
  | finish i o => simp only [step]; rw [if_neg]; rintro ⟨a, b⟩; rw [hall i a] at b; cases b
  | done i => simp only [step]; rw [if_neg]; rintro ⟨a, b, _⟩; rw [hall i a] at b; cases b
  | recv => simp only [step, recv]; rw [if_pos hc]
  | outside => simp only [step]; rw [if_pos hl]
  | leave => simp only [step]; rw [if_neg]; rintro ⟨a, _⟩; rw [hl] at a; cases a

/-- **C319.**  When `race` has ended, by a value, an error or the cancellation of its caller, every awaitable it was given has ended, each of them once, and before the call did: nothing happens
afterwards. -/
theorem C319_nothing_left {n : Nat} {a b : List Op} {s : State} (e : run n {} (a ++ .leave :: b) = some s) :
    b = [] ∧ ((endings a).map Prod.fst).Nodup ∧ ∀ i, i ∈ (endings a).map Prod.fst ↔ i < n := by
  have e1 : a ++ Op.leave :: b = (a ++ [.leave]) ++ b := by simp
  rw [e1, run_append] at e
  obtain ⟨u, hu, e⟩ := Option.bind_eq_some_iff.mp e
  have v := run_inv _ hu
  have hl : u.left = true := v.left.mpr (by simp)
  have he : endings (a ++ [Op.leave]) = endings a := endings_other rfl a
  refine ⟨?_, by have := v.once; rwa [he] at this, fun i => ⟨fun m => v.known i (by rw [he]; exact m), fun hi => ?_⟩⟩
  · cases b with
    | nil => rfl
    | cons o b => simp only [run] at e; rw [stopped v hl o] at e; cases e
  · have := (v.runs i)
    rw [he, (v.quiet hl).2 i hi] at this
    by_cases m : i ∈ (endings a).map Prod.fst
    · exact m
    · have := this.mpr m; cases this

/-- **C319.**  The call ends with the outcome of the awaitable that ended first, or with the cancellation of its caller if there was one; what the other awaitables do, also while they are
being cancelled, has no influence. -/
theorem C319_outcome {n : Nat} {h : List Op} {s : State} (e : run n {} h = some s) :
    (Op.leave ∉ h → outcome s = none) ∧ (Op.leave ∈ h → Op.outside ∈ h → outcome s = some .cancelled) ∧
      (Op.leave ∈ h → Op.outside ∉ h → ∃ i o, (endings h).head? = some (i, o) ∧ outcome s = some o) := by
  have v := run_inv h e
  refine ⟨fun a => ?_, fun a b => ?_, fun a b => ?_⟩
  · have : s.left = false := by cases c : s.left with
      | false => rfl
      | true => exact absurd (v.left.mp c) a
    simp [outcome, this]
  · simp [outcome, v.left.mpr a, v.outside.mpr b]
  · have hl := v.left.mpr a
    have ho : s.outside = false := by cases c : s.outside with
      | false => rfl
      | true => exact absurd (v.outside.mp c) b
    have hc := (cancelled_iff s).mp (v.quiet hl).1
    rw [ho] at hc
    have hg : s.got.isSome = true := by simpa using hc
    obtain ⟨⟨i, o⟩, hx⟩ := Option.isSome_iff_exists.mp hg
    exact ⟨i, o, v.first _ hx, by simp [outcome, hl, ho, hx]⟩

/-- **C319.**  The other awaitables are cancelled from the moment when the first outcome is received or the caller is cancelled, and not before; an outcome can be received exactly when an
awaitable has ended and neither has happened yet. -/
theorem C319_cancels {n : Nat} {h : List Op} {s : State} (e : run n {} h = some s) :
    (cancelled s = true ↔ Op.recv ∈ h ∨ Op.outside ∈ h) ∧ ((step n s .recv).isSome = true ↔ endings h ≠ [] ∧ Op.recv ∉ h ∧ Op.outside ∉ h) := by
  have v := run_inv h e
  have h1 : cancelled s = true ↔ Op.recv ∈ h ∨ Op.outside ∈ h := by rw [cancelled_iff, v.got, v.outside]
  refine ⟨h1, ?_⟩
  simp only [step, recv]
  by_cases c : cancelled s = true
  · rw [if_pos c]
    refine ⟨fun a => (nomatch a), fun a => ?_⟩
    rcases h1.mp c with d | d
    · exact absurd d a.2.1
    · exact absurd d a.2.2
  · rw [if_neg c]
    have c' : cancelled s = false := by simpa using c
    have d : ¬(Op.recv ∈ h ∨ Op.outside ∈ h) := fun x => c (h1.mpr x)
    rw [v.open_ c', Option.isSome_map]
    cases he : endings h with
    | nil => simp
    | cons x l => simpa using d

/-- Specification: what happens without any awaitable and without the caller. -/
def own : Op → Bool
  | .finish _ _ => false
  | .outside => false
  | _ => true

/-- The runners end one after the other. -/
theorem settle (n : Nat) {s : State} (hc : cancelled s = true) (hr : ∀ i, i < n → s.phase i ≠ .running) (hl : s.left = false) :
    ∀ k, k ≤ n → ∃ l t, (∀ o ∈ l, own o = true) ∧ run n s l = some t ∧ cancelled t = true ∧ t.left = false ∧ (∀ i, i < n → t.phase i ≠ .running) ∧ ∀ i, i < k → t.phase i = .ended := by
  intro k
  induction k with
  | zero => intro _; exact ⟨[], s, by simp, rfl, hc, hl, hr, by intro i hi; omega⟩
  | succ k ih =>
    intro hk
    obtain ⟨l, t, ho, hrun, htc, htl, htr, hte⟩ := ih (by omega)
    cases hp : t.phase k with
    | running => exact absurd hp (htr k (by omega))
    | ended =>
      refine ⟨l, t, ho, hrun, htc, htl, htr, fun i hi => ?_⟩
      by_cases q : i = k
      · rw [q]; exact hp
      · exact hte i (by omega)
    | offering =>
      refine ⟨l ++ [.done k], { t with phase := upd t.phase k .ended }, ?_, ?_, htc, htl, ?_, ?_⟩
      · intro o m
        rcases List.mem_append.mp m with m | m
        · exact ho o m
        · rw [List.mem_singleton.mp m]; rfl
      · rw [run_append, hrun]
        show run n t [.done k] = _
        simp only [run, step]
        rw [if_pos ⟨by omega, hp, htc⟩]; rfl
      · intro i hi x
        exact htr i hi (((upd_running (by simp)).mp x).2)
      · intro i hi
        show upd t.phase k .ended i = .ended
        unfold upd
        by_cases q : i = k
        · rw [if_pos q]
        · rw [if_neg q]; exact hte i (by omega)

/-- **C319.**  `race` does not hang: as soon as its awaitables have ended it can end by itself. -/
theorem C319_ends {n : Nat} (hn : 0 < n) {h : List Op} {s : State} (e : run n {} h = some s) (hd : ∀ i, i < n → i ∈ (endings h).map Prod.fst) :
    ∃ l t, (∀ o ∈ l, own o = true) ∧ run n {} (h ++ l) = some t ∧ (outcome t).isSome = true := by
  have fin : ∀ (h : List Op) (s : State), run n {} h = some s → (∀ i, i < n → i ∈ (endings h).map Prod.fst) → cancelled s = true →
      ∃ l t, (∀ o ∈ l, own o = true) ∧ run n {} (h ++ l) = some t ∧ t.left = true := by
    intro h s e hd hc
    have v := run_inv h e
    by_cases hl : s.left = true
    · exact ⟨[], s, by simp, by simpa using e, hl⟩
    · obtain ⟨l, t, ho, hrun, htc, htl, _, hte⟩ := settle n hc (fun i hi x => (v.runs i).mp x (hd i hi)) (by simpa using hl) n (Nat.le_refl n)
      refine ⟨l ++ [.leave], { t with left := true }, ?_, ?_, rfl⟩
      · intro o m
        rcases List.mem_append.mp m with m | m
        · exact ho o m
        · rw [List.mem_singleton.mp m]; rfl
      · rw [run_append, e]
        show run n s (l ++ [.leave]) = _
        rw [run_append, hrun]
        show run n t [.leave] = _
        simp only [run, step]
        rw [if_pos ⟨htl, htc, (allEnded_iff n t).mpr hte⟩]; rfl
  have out : ∀ (h : List Op) (t : State), run n {} h = some t → t.left = true → (outcome t).isSome = true := by
    intro h t e hl
    have v := run_inv h e
    have c := C319_outcome e
    by_cases q : Op.outside ∈ h
    · rw [c.2.1 (v.left.mp hl) q]; rfl
    · obtain ⟨i, o, _, x⟩ := c.2.2 (v.left.mp hl) q
      rw [x]; rfl
  by_cases hc : cancelled s = true
  · obtain ⟨l, t, ho, hr, hl⟩ := fin h s e hd hc
    exact ⟨l, t, ho, hr, out _ t hr hl⟩
  · have v := run_inv h e
    have c := C319_cancels e
    have d : ¬(Op.recv ∈ h ∨ Op.outside ∈ h) := fun x => hc (c.1.mpr x)
    have ne : endings h ≠ [] := by
      intro x; have := hd 0 hn; rw [x] at this; cases this
    obtain ⟨u, hu⟩ := Option.isSome_iff_exists.mp (c.2.mpr ⟨ne, fun x => d (.inl x), fun x => d (.inr x)⟩)
    have e' : run n {} (h ++ [.recv]) = some u := by
      rw [run_append, e]; show run n s [.recv] = _
      simp only [run]; rw [hu]; rfl
    have he : endings (h ++ [Op.recv]) = endings h := endings_other rfl h
    have hc' : cancelled u = true := ((C319_cancels e').1).mpr (.inl (by simp))
    obtain ⟨l, t, ho, hr, hl⟩ := fin _ u e' (by rw [he]; exact hd) hc'
    refine ⟨.recv :: l, t, ?_, by simpa using hr, out _ t hr hl⟩
    intro o m
    rcases List.mem_cons.mp m with m | m
    · rw [m]; rfl
    · exact ho o m

/-- **C319.**  An awaitable that does not end keeps `race` from ending, whatever the others did: it can leave only when the last one has ended. -/
theorem C319_waits {n : Nat} {h : List Op} {s : State} (e : run n {} h = some s) (i : Nat) (hi : i < n) (hr : i ∉ (endings h).map Prod.fst) :
    outcome s = none ∧ step n s .leave = none := by
  have v := run_inv h e
  have hp := (v.runs i).mpr hr
  have nl : s.left = false := by
    cases hl : s.left with
    | false => rfl
    | true => have := (v.quiet hl).2 i hi; rw [hp] at this; cases this
  refine ⟨by simp [outcome, nl], ?_⟩
  simp only [step]
  rw [if_neg]
  rintro ⟨_, _, a⟩
  have := (allEnded_iff n s).mp a i hi
  rw [hp] at this; cases this

/-- Three awaitables: the second one wins, the third one ends before the outcome is received, the first one fails while it is being cancelled. -/
example : ((run 3 {} [.finish 1 (.ok 7), .finish 2 (.ok 8), .recv, .done 1, .finish 0 (.exc 4), .done 2, .leave]).bind outcome) = some (.ok 7) := by decide
/-- The caller is cancelled; the call ends when the awaitables have. -/
example : ((run 2 {} [.outside, .finish 0 .cancelled, .finish 1 .cancelled, .leave]).bind outcome) = some .cancelled := by decide
/-- `race` does not end while an awaitable runs. -/
example : (run 2 {} [.finish 1 (.ok 7), .recv, .done 1, .leave]).isNone = true := by decide

end Verif.RaceLive
