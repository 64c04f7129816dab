import Verif.Model.AlcallTime
import Verif.Model.Alcall
import Verif.Props.AsyncCall

/-!
# When `alcall` calls the function: throttling, delays between attempts, and `max_concurrent` (C297, C298, C299)
-/

set_option linter.unusedSimpArgs false
set_option linter.unusedVariables false

namespace Verif.AlcallTime

/-! ### Schedules -/

/-- Nothing can be done now: no action of the loop or of a task changes anything. -/
def Idle (c : Cfg) (s : Sys) : Prop := step c s .start = s ∧ ∀ i, step c s (.call i) = s

/-- Time passes, one unit at a time, only when nothing can be done: no delay comes from the scheduler. -/
def promptFrom (c : Cfg) : Sys → List Act → Prop
  | _, [] => True
  | s, a :: as => (∀ d, a = .pass d → d ≤ 1 ∧ Idle c s) ∧ promptFrom c (step c s a) as

/-- A schedule without delays by the scheduler. -/
def Prompt (c : Cfg) (acts : List Act) : Prop := promptFrom c {} acts

theorem upd_self {α : Type} (f : Nat → α) (i : Nat) (v : α) : upd f i v i = v := by simp [upd]

theorem upd_ne {α : Type} (f : Nat → α) (v : α) {i j : Nat} (h : j ≠ i) : upd f i v j = f j := by simp [upd, h]

theorem canStart_iff (c : Cfg) (s : Sys) : canStart c s = true ↔ s.next < c.n ∧ due c s ≤ s.clock := by simp [canStart]

theorem canCall_iff (c : Cfg) (s : Sys) (i : Nat) :
    canCall c s i = true ↔ i < s.next ∧ s.called i = none ∧ slotFree c s = true := by
  simp [canCall, and_assoc]

theorem idle_iff (c : Cfg) (s : Sys) : Idle c s ↔ canStart c s = false ∧ ∀ i, canCall c s i = false := by
  constructor
  · intro h
    refine ⟨?_, fun i => ?_⟩
    · cases hc : canStart c s with
      | false => rfl
      | true =>
        have := congrArg Sys.next h.1
        simp [step, hc] at this
    · cases hc : canCall c s i with
      | false => rfl
      | true =>
        have h1 := congrArg (fun x => x.called i) (h.2 i)
        have h2 := ((canCall_iff c s i).mp hc).2.1
        simp [step, hc, upd_self, h2] at h1
  · intro h
    exact ⟨by simp [step, h.1], fun i => by simp [step, h.2 i]⟩

/-- Tasks are started one after the other, at least the throttle period apart; a call comes after the start of its task. -/
structure Inv (c : Cfg) (s : Sys) : Prop where
  late : ∀ i t, s.started i = some t → i < s.next ∧ c.before + i * c.throttle ≤ t ∧ t ≤ s.clock
  gap : ∀ i t t', s.started i = some t → s.started (i + 1) = some t' → t + c.throttle ≤ t'
  all : ∀ i, i < s.next → s.started i ≠ none
  called : ∀ i t, s.called i = some t → ∃ t', s.started i = some t' ∧ t' ≤ t

theorem Inv.init (c : Cfg) : Inv c {} where
  late := by intro i t h; cases h
  gap := by intro i t t' h; cases h
  all := by intro i h; exact absurd h (Nat.not_lt_zero i)
  called := by intro i t h; cases h

theorem Inv.step {c : Cfg} {s : Sys} (h : Inv c s) (a : Act) : Inv c (step c s a) := by
  cases a with
  | pass d =>
    refine ⟨fun i t ht => ?_, h.gap, h.all, h.called⟩
    have := h.late i t ht
    simp only [AlcallTime.step]; omega
  | start =>
    simp only [AlcallTime.step]
    cases hc : canStart c s with
    | false => simpa using h
    | true =>
      have hs := (canStart_iff c s).mp hc
      have hn : s.started s.next = none := by
        cases hx : s.started s.next with
        | none => rfl
        | some t => exact absurd (h.late _ _ hx).1 (Nat.lt_irrefl _)
      have hdue : c.before + s.next * c.throttle ≤ s.clock ∧ (∀ k t, s.next = k + 1 → s.started k = some t → t + c.throttle ≤ s.clock) := by
        have h2 := hs.2
        simp only [due] at h2
        cases hk : s.next with
        | zero =>
          simp only [hk] at h2
          exact ⟨by omega, by intro k t hk'; cases hk'⟩
        | succ k =>
          simp only [hk] at h2
          obtain ⟨t, ht⟩ := Option.ne_none_iff_exists'.mp (h.all k (by omega))
          have h3 := h.late k t ht
          rw [ht] at h2
          simp only [Option.getD_some] at h2
          refine ⟨?_, ?_⟩
          · rw [Nat.succ_mul]; omega
          · intro k' t' hk' ht'
            cases hk'
            rw [ht] at ht'; cases ht'; exact h2
      simp only [if_true]
      refine ⟨?_, ?_, ?_, ?_⟩ <;> dsimp only
      · intro i t ht
        by_cases hi : i = s.next
        · subst hi
          rw [upd_self] at ht; cases ht
          exact ⟨Nat.lt_succ_self _, hdue.1, Nat.le_refl _⟩
        · rw [upd_ne _ _ hi] at ht
          have := h.late i t ht
          exact ⟨Nat.lt_succ_of_lt this.1, this.2⟩
      · intro i t t' ht ht'
        by_cases hi : i = s.next
        · subst hi
          rw [upd_ne _ _ (by omega)] at ht'
          exact absurd (h.late _ _ ht').1 (by omega)
        · rw [upd_ne _ _ hi] at ht
          by_cases hj : i + 1 = s.next
          · rw [hj, upd_self] at ht'; cases ht'
            exact hdue.2 i t hj.symm ht
          · rw [upd_ne _ _ hj] at ht'
            exact h.gap i t t' ht ht'
      · intro i hi
        by_cases hj : i = s.next
        · subst hj; rw [upd_self]; simp
        · rw [upd_ne _ _ hj]; exact h.all i (by omega)
      · intro i t ht
        obtain ⟨t', h1, h2⟩ := h.called i t ht
        have : i ≠ s.next := by intro e; subst e; rw [hn] at h1; cases h1
        exact ⟨t', by rw [upd_ne _ _ this]; exact h1, h2⟩
  | call i =>
    simp only [AlcallTime.step]
    cases hc : canCall c s i with
    | false => simpa using h
    | true =>
      simp only [if_true]
      refine ⟨h.late, h.gap, h.all, ?_⟩
      dsimp only
      intro j t ht
      by_cases hj : j = i
      · subst hj
        rw [upd_self] at ht; cases ht
        obtain ⟨t', ht'⟩ := Option.ne_none_iff_exists'.mp (h.all j ((canCall_iff c s j).mp hc).1)
        exact ⟨t', ht', (h.late _ _ ht').2.2⟩
      · rw [upd_ne _ _ hj] at ht
        exact h.called j t ht
  | finish i =>
    simp only [AlcallTime.step]
    split
    · exact ⟨h.late, h.gap, h.all, h.called⟩
    · exact h

theorem Inv.run (c : Cfg) (acts : List Act) : Inv c (run c acts) := by
  have : ∀ (acts : List Act) (s : Sys), Inv c s → Inv c (acts.foldl (AlcallTime.step c) s) := by
    intro acts
    induction acts with
    | nil => intro s h; exact h
    | cons a as ih => intro s h; exact ih _ (h.step a)
  exact this acts {} (Inv.init c)

theorem Inv.apart {c : Cfg} {s : Sys} (h : Inv c s) (i d : Nat) : ∀ (t t' : Nat), s.started i = some t → s.started (i + d) = some t' →
    t + d * c.throttle ≤ t' := by
  induction d with
  | zero =>
    intro t t' h1 h2
    rw [Nat.add_zero, h1] at h2; cases h2; omega
  | succ d ih =>
    intro t t' h1 h2
    have hl := (h.late _ _ h2).1
    obtain ⟨u, hu⟩ := Option.ne_none_iff_exists'.mp (h.all (i + d) (by omega))
    have h3 := ih t u h1 hu
    have h4 := h.gap (i + d) u t' hu h2
    rw [Nat.succ_mul]; omega

/-- One more member at most. -/
theorem filter_one_more (p q : Nat → Bool) (i : Nat) (h : ∀ j, j ≠ i → p j = true → q j = true) (l : List Nat) (hl : l.Nodup) :
    (l.filter p).length ≤ (l.filter q).length + 1 := by
  induction l with
  | nil => simp
  | cons a l ih =>
    have hl' := List.nodup_cons.mp hl
    by_cases c : a = i
    · have sub : ∀ m : List Nat, i ∉ m → (m.filter p).length ≤ (m.filter q).length := by
        intro m
        induction m with
        | nil => simp
        | cons b m im =>
          intro hm
          have hb : b ≠ i := fun e => hm (by rw [e]; simp)
          have := im (fun x => hm (List.mem_cons_of_mem _ x))
          rw [List.filter_cons, List.filter_cons]
          by_cases d : p b = true
          · rw [if_pos d, if_pos (h b hb d)]; simpa using this
          · rw [if_neg d]
            by_cases e : q b = true
            · rw [if_pos e]; exact Nat.le_succ_of_le this
            · rw [if_neg e]; exact this
      have := sub l (c ▸ hl'.1)
      rw [List.filter_cons, List.filter_cons]
      split <;> split <;> (try simp only [List.length_cons]) <;> omega
    · have := ih hl'.2
      rw [List.filter_cons, List.filter_cons]
      by_cases d : p a = true
      · rw [if_pos d, if_pos (h a c d)]; simp only [List.length_cons]; omega
      · rw [if_neg d]; split <;> (try simp only [List.length_cons]) <;> omega

/-- C299 on the clock: with a limit `k`, at no time more than `k` items are between their first call and their end, pauses between attempts included; an item ends only after
its call, and is called only after its task was started. -/
theorem C299_clock_partial (c : Cfg) (k : Nat) (hk : c.limit = some k) (acts : List Act) :
    ((List.range c.n).filter (fun i => ((run c acts).called i).isSome && !(run c acts).ended i)).length ≤ k ∧
      (∀ i, (run c acts).ended i = true → ((run c acts).called i).isSome = true) ∧ ∀ i, ((run c acts).called i).isSome = true → ((run c acts).started i).isSome = true := by
  have key : ∀ (acts : List Act) (s : Sys), Inv c s → (active c s).length ≤ k → (∀ i, s.ended i = true → (s.called i).isSome = true) →
      (active c (acts.foldl (step c) s)).length ≤ k ∧ (∀ i, (acts.foldl (step c) s).ended i = true → ((acts.foldl (step c) s).called i).isSome = true) ∧
        Inv c (acts.foldl (step c) s) := by
    intro acts
    induction acts with
    | nil => intro s v h1 h2; exact ⟨h1, h2, v⟩
    | cons a acts ih =>
      intro s v h1 h2
      have v' := v.step a
      refine ih (step c s a) v' ?_ ?_
      · cases a with
        | pass d => exact h1
        | start => simp only [step]; split <;> exact h1
        | call i =>
          simp only [step]
          by_cases g : canCall c s i = true
          · rw [if_pos g]
            have hf := ((canCall_iff c s i).mp g).2.2
            rw [slotFree, hk] at hf
            have hf : (active c s).length < k := of_decide_eq_true hf
            have := filter_one_more (fun j => ((upd s.called i (some s.clock)) j).isSome && !s.ended j) (fun j => (s.called j).isSome && !s.ended j) i
              (by intro j hj; rw [upd_ne _ _ hj]; exact id) (List.range c.n) List.nodup_range
            simp only [active] at hf ⊢
            omega
          · rw [if_neg g]; exact h1
        | finish i =>
          simp only [step]
          by_cases g : (s.called i).isSome = true
          · rw [if_pos g]
            refine Nat.le_trans ?_ h1
            simp only [active]
            have hsub : ∀ j, ((s.called j).isSome && !(upd s.ended i true) j) = true → ((s.called j).isSome && !s.ended j) = true := by
              intro j hj
              by_cases e : j = i
              · rw [e, upd_self] at hj; simp at hj
              · rw [upd_ne _ _ e] at hj; exact hj
            rw [← List.countP_eq_length_filter, ← List.countP_eq_length_filter]
            exact List.countP_mono_left (fun j _ => hsub j)
          · rw [if_neg g]; exact h1
      · intro j hj
        cases a with
        | pass d => exact h2 j hj
        | start => revert hj; simp only [step]; split <;> exact h2 j
        | call i =>
          revert hj; simp only [step]; split
          · intro hj
            by_cases e : j = i
            · show (upd s.called i _ j).isSome = true; rw [e, upd_self]; rfl
            · show (upd s.called i _ j).isSome = true; rw [upd_ne _ _ e]; exact h2 j hj
          · exact h2 j
        | finish i =>
          revert hj; simp only [step]
          by_cases g : (s.called i).isSome = true
          · rw [if_pos g]; intro hj
            by_cases e : j = i
            · rw [e]; exact g
            · have hj : upd s.ended i true j = true := hj
              rw [upd_ne _ _ e] at hj; exact h2 j hj
          · rw [if_neg g]; exact h2 j
  have h0 : active c {} = [] := by
    rw [active, List.filter_eq_nil_iff]; intro a _ h; cases h
  obtain ⟨h1, h2, v⟩ := key acts {} (Inv.init c) (by rw [h0]; exact Nat.zero_le _) (by intro i h; cases h)
  refine ⟨h1, h2, fun i hi => ?_⟩
  obtain ⟨t, ht⟩ := Option.isSome_iff_exists.mp hi
  obtain ⟨t', ht', _⟩ := v.called i t ht
  exact Option.isSome_iff_exists.mpr ⟨t', ht'⟩

/-- C297, lower bound: under every schedule the function is not called for the item at position `i` (from 0) before `delay_before_start + i * throttle_period`
has passed. -/
theorem C297_not_before (c : Cfg) (acts : List Act) (i t : Nat) (h : (run c acts).called i = some t) : c.before + i * c.throttle ≤ t := by
  obtain ⟨t', h1, h2⟩ := (Inv.run c acts).called i t h
  exact Nat.le_trans ((Inv.run c acts).late i t' h1).2.1 h2

/-- C297, restricted to items called at once: if the function is called for an item in the moment its task is started, the calls for all later items come at
least one throttle period per position later. Missing: an item that had to wait for a slot (or for the scheduler), see `C297_violation`. -/
theorem C297_gap_partial (c : Cfg) (acts : List Act) (i d t t' : Nat) (hs : (run c acts).started i = some t) (h : (run c acts).called i = some t)
    (h' : (run c acts).called (i + d) = some t') : t + d * c.throttle ≤ t' := by
  obtain ⟨u, h1, h2⟩ := (Inv.run c acts).called (i + d) t' h'
  exact Nat.le_trans ((Inv.run c acts).apart i d t u hs h1) h2

/-- With enough slots there is always a free one for a task that waits. -/
def Enough (c : Cfg) : Prop := c.limit = none ∨ ∃ k, c.limit = some k ∧ c.n ≤ k

/-- What holds in schedules without delays by the scheduler, when there are enough slots. -/
structure Sharp (c : Cfg) (s : Sys) : Prop where
  bound : s.next ≤ c.n
  started : ∀ i, i < s.next → s.started i = some (c.before + i * c.throttle)
  called : ∀ i t, s.called i = some t → i < s.next ∧ t = c.before + i * c.throttle
  waiting : ∀ i, i < s.next → s.called i = none → s.clock = c.before + i * c.throttle
  clock : s.next < c.n → s.clock ≤ c.before + s.next * c.throttle

theorem filter_lt {p : Nat → Bool} {n i : Nat} (hi : i < n) (hp : p i = false) : ((List.range n).filter p).length < n := by
  have h1 : ((List.range n).filter p).length ≤ (List.range n).length := List.length_filter_le _ _
  have h2 : ((List.range n).filter p).length ≠ (List.range n).length := by
    intro e
    have := List.length_filter_eq_length_iff.mp e i (List.mem_range.mpr hi)
    rw [hp] at this; cases this
  rw [List.length_range] at h1 h2
  omega

theorem Sharp.free {c : Cfg} (he : Enough c) {s : Sys} (h : Sharp c s) {i : Nat} (hi : i < s.next) (hc : s.called i = none) : slotFree c s = true := by
  rcases he with hl | ⟨k, hl, hk⟩
  · simp [slotFree, hl]
  · simp only [slotFree, hl, decide_eq_true_eq]
    have h1 : (active c s).length < c.n := filter_lt (Nat.lt_of_lt_of_le hi h.bound) (by simp [hc])
    omega

theorem due_sharp {c : Cfg} {s : Sys} (h : Sharp c s) : due c s = c.before + s.next * c.throttle := by
  simp only [due]
  cases hk : s.next with
  | zero => simp
  | succ k =>
    show (s.started k).getD 0 + c.throttle = _
    rw [h.started k (by omega)]
    simp only [Option.getD_some, Nat.succ_mul]; omega

theorem Sharp.step {c : Cfg} (he : Enough c) {s : Sys} (h : Sharp c s) (a : Act) (hp : ∀ d, a = .pass d → d ≤ 1 ∧ Idle c s) :
    Sharp c (step c s a) := by
  cases a with
  | pass d =>
    obtain ⟨hd, hi⟩ := hp d rfl
    rw [idle_iff] at hi
    have hw : ∀ i, i < s.next → s.called i ≠ none := by
      intro i h1 h2
      have := (canCall_iff c s i).mpr ⟨h1, h2, h.free he h1 h2⟩
      rw [hi.2 i] at this; cases this
    refine ⟨h.bound, h.started, h.called, fun i h1 h2 => absurd h2 (hw i h1), fun hn => ?_⟩
    have h1 : ¬ due c s ≤ s.clock := by
      intro hx
      have := (canStart_iff c s).mpr ⟨hn, hx⟩
      rw [hi.1] at this; cases this
    rw [due_sharp h] at h1
    simp only [AlcallTime.step]; omega
  | start =>
    simp only [AlcallTime.step]
    cases hc : canStart c s with
    | false => simpa using h
    | true =>
      have hs := (canStart_iff c s).mp hc
      rw [due_sharp h] at hs
      have hq := h.clock hs.1
      have ht : s.clock = c.before + s.next * c.throttle := by omega
      simp only [if_true]
      refine ⟨hs.1, ?_, ?_, ?_, ?_⟩ <;> dsimp only
      · intro i hi
        by_cases hj : i = s.next
        · subst hj; rw [upd_self, ht]
        · rw [upd_ne _ _ hj]; exact h.started i (by omega)
      · intro i t hx
        have := h.called i t hx
        exact ⟨Nat.lt_succ_of_lt this.1, this.2⟩
      · intro i hi hx
        by_cases hj : i = s.next
        · subst hj; exact ht
        · exact h.waiting i (by omega) hx
      · intro hn
        rw [Nat.succ_mul]; omega
  | call i =>
    simp only [AlcallTime.step]
    cases hc : canCall c s i with
    | false => simpa using h
    | true =>
      have hs := (canCall_iff c s i).mp hc
      simp only [if_true]
      refine ⟨h.bound, h.started, ?_, ?_, h.clock⟩ <;> dsimp only
      · intro j t ht
        by_cases hj : j = i
        · subst hj; rw [upd_self] at ht; cases ht
          exact ⟨hs.1, h.waiting j hs.1 hs.2.1⟩
        · rw [upd_ne _ _ hj] at ht; exact h.called j t ht
      · intro j h1 h2
        by_cases hj : j = i
        · subst hj; rw [upd_self] at h2; cases h2
        · rw [upd_ne _ _ hj] at h2; exact h.waiting j h1 h2
  | finish i =>
    simp only [AlcallTime.step]
    split
    · exact ⟨h.bound, h.started, h.called, h.waiting, h.clock⟩
    · exact h

/-- C297 with a free slot for every item: when the scheduler adds no delay and `max_concurrent` is absent or not smaller than the number of items, the function is
called for the item at position `i` exactly at `delay_before_start + i * throttle_period`. -/
theorem C297_exact_partial (c : Cfg) (he : Enough c) (acts : List Act) (hp : Prompt c acts) (i t : Nat) (h : (run c acts).called i = some t) :
    t = c.before + i * c.throttle := by
  have : ∀ (acts : List Act) (s : Sys), promptFrom c s acts → Sharp c s → Sharp c (acts.foldl (step c) s) := by
    intro acts
    induction acts with
    | nil => intro s _ h; exact h
    | cons a as ih =>
      intro s hp h
      simp only [promptFrom] at hp
      exact ih _ hp.2 (h.step he a hp.1)
  have h0 : Sharp c {} :=
    ⟨Nat.zero_le _, fun i h => absurd h (Nat.not_lt_zero i), fun i t h => (by cases h), fun i h => absurd h (Nat.not_lt_zero i), fun _ => Nat.zero_le _⟩
  exact ((this acts {} hp h0).called i t h).2

theorem idle_of {c : Cfg} {s : Sys} (h1 : canStart c s = false) (h2 : (List.range s.next).all (fun i => !canCall c s i) = true) : Idle c s := by
  rw [idle_iff]
  refine ⟨h1, fun i => ?_⟩
  by_cases hi : i < s.next
  · have := List.all_eq_true.mp h2 i (List.mem_range.mpr hi)
    simpa using this
  · simp [canCall, hi]

/-- Check of promptness by evaluation. -/
def checkPrompt (c : Cfg) : Sys → List Act → Bool
  | _, [] => true
  | s, .pass d :: as =>
    decide (d ≤ 1) && !canStart c s && (List.range s.next).all (fun i => !canCall c s i) && checkPrompt c (step c s (.pass d)) as
  | s, .start :: as => checkPrompt c (step c s .start) as
  | s, .call i :: as => checkPrompt c (step c s (.call i)) as
  | s, .finish i :: as => checkPrompt c (step c s (.finish i)) as

theorem promptFrom_of_check (c : Cfg) (acts : List Act) : ∀ s, checkPrompt c s acts = true → promptFrom c s acts := by
  induction acts with
  | nil => intro s _; trivial
  | cons a as ih =>
    intro s h
    cases a with
    | pass d =>
      simp only [checkPrompt, Bool.and_eq_true, Bool.not_eq_true', decide_eq_true_eq] at h
      refine ⟨fun d' hd => ?_, ih _ h.2⟩
      cases hd
      exact ⟨h.1.1.1, idle_of h.1.1.2 h.1.2⟩
    | start => exact ⟨fun d' hd => (by cases hd), ih _ h⟩
    | call i => exact ⟨fun d' hd => (by cases hd), ih _ h⟩
    | finish i => exact ⟨fun d' hd => (by cases hd), ih _ h⟩

/-- Three items, two seconds apart, one at a time; the first call takes four seconds, the second one second. -/
def demoCfg : Cfg := { throttle := 2, n := 3, limit := some 1 }

/-- Its schedule. -/
def demoActs : List Act :=
  [.start, .call 0, .pass 1, .pass 1, .start, .pass 1, .pass 1, .start, .finish 0, .call 1, .pass 1, .finish 1, .call 2]

/-- C297 is false when items wait for a slot: with `throttle_period = 2` and `max_concurrent = 1`, and no delay by the scheduler, the function is called for the
third item one second after it was called for the second. -/
theorem C297_violation : Prompt demoCfg demoActs ∧ (run demoCfg demoActs).called 1 = some 4 ∧ (run demoCfg demoActs).called 2 = some 5 :=
  ⟨promptFrom_of_check _ _ _ (by decide), by decide, by decide⟩

/-- The hypotheses of `C297_exact_partial` and `C297_gap_partial` are met by a run with two calls. -/
example : Enough { before := 1, throttle := 2, n := 2, limit := some 2 } ∧
    Prompt { before := 1, throttle := 2, n := 2, limit := some 2 } [.pass 1, .start, .call 0, .pass 1, .pass 1, .start, .call 1] ∧
    (run { before := 1, throttle := 2, n := 2, limit := some 2 } [.pass 1, .start, .call 0, .pass 1, .pass 1, .start, .call 1]).called 1 = some 3 ∧
    (run { before := 1, throttle := 2, n := 2, limit := some 2 } [.pass 1, .start, .call 0, .pass 1, .pass 1, .start, .call 1]).started 0 = some 1 ∧
    (run { before := 1, throttle := 2, n := 2, limit := some 2 } [.pass 1, .start, .call 0, .pass 1, .pass 1, .start, .call 1]).called 0 = some 1 :=
  ⟨.inr ⟨2, rfl, Nat.le_refl _⟩, promptFrom_of_check _ _ _ (by decide), by decide, by decide, by decide⟩

/-! ### Delays between attempts -/

/-- The pause of length `d`, if it has one. -/
def pause (d : Rat) : List Ev := if d = 0 then [] else [.sleep d]

/-- Attempt number `j` and the pause after it. -/
def attemptAndPause (initial backoff : Rat) (script : Nat → Rat × Bool) (j : Nat) : List Ev :=
  .call (script j).1 :: pause (initial * backoff ^ j)

theorem attempts_shift (backoff : Rat) (script : Nat → Rat × Bool) (left : Nat) : ∀ (k : Nat) (delay : Rat),
    ∃ m, m ≤ left ∧ (∀ j, j < m → (script (k + j)).2 = false) ∧ ((script (k + m)).2 = true ∨ m = left) ∧
      attempts backoff script left k delay =
        (List.range m).flatMap (fun j => .call (script (k + j)).1 :: pause (delay * backoff ^ j)) ++ [.call (script (k + m)).1] := by
  induction left with
  | zero =>
    intro k delay
    refine ⟨0, Nat.le_refl _, fun j h => absurd h (Nat.not_lt_zero j), .inr rfl, ?_⟩
    rfl
  | succ left ih =>
    intro k delay
    rw [attempts]
    by_cases hs : (script k).2 = true
    · refine ⟨0, Nat.zero_le _, fun j h => absurd h (Nat.not_lt_zero j), .inl hs, ?_⟩
      simp [hs]
    · have hf : (script k).2 = false := by simpa using hs
      have key : ∀ d', delay * backoff = d' ∨ delay = 0 ∧ d' = 0 → ∃ m, m ≤ left + 1 ∧ (∀ j, j < m → (script (k + j)).2 = false) ∧
          ((script (k + m)).2 = true ∨ m = left + 1) ∧
          .call (script k).1 :: (pause delay ++ attempts backoff script left (k + 1) d') =
            (List.range m).flatMap (fun j => .call (script (k + j)).1 :: pause (delay * backoff ^ j)) ++ [.call (script (k + m)).1] := by
        intro d' hd
        obtain ⟨m, h1, h2, h3, h4⟩ := ih (k + 1) d'
        refine ⟨m + 1, by omega, ?_, ?_, ?_⟩
        · intro j hj
          cases j with
          | zero => exact hf
          | succ j => have := h2 j (by omega); rw [show k + (j + 1) = k + 1 + j by omega]; exact this
        · rw [show k + (m + 1) = k + 1 + m by omega]
          rcases h3 with h3 | h3
          · exact .inl h3
          · exact .inr (by omega)
        · rw [h4, List.range_succ_eq_map, List.flatMap_cons, List.flatMap_map]
          have hpow : ∀ j : Nat, delay * backoff ^ (j + 1) = d' * backoff ^ j := by
            intro j
            rcases hd with hd | ⟨hd, hd'⟩
            · rw [← hd, Rat.pow_succ, Rat.mul_comm (backoff ^ j), Rat.mul_assoc]
            · rw [hd, hd', Rat.zero_mul, Rat.zero_mul]
          simp only [Nat.succ_eq_add_one, hpow, Rat.pow_zero, Rat.mul_one, Nat.add_zero, List.cons_append, List.append_assoc]
          simp only [Nat.add_assoc, Nat.add_comm 1]
      simp only [hf, Bool.false_eq_true, if_false]
      by_cases hd : delay = 0
      · obtain ⟨m, h1, h2, h3, h4⟩ := key delay (.inr ⟨hd, hd⟩)
        refine ⟨m, h1, h2, h3, ?_⟩
        rw [← h4]; simp [hd, pause]
      · obtain ⟨m, h1, h2, h3, h4⟩ := key (delay * backoff) (.inl rfl)
        refine ⟨m, h1, h2, h3, ?_⟩
        rw [← h4]; simp [hd, pause]

/-- C298: processing an item consists of the attempts 0 … m, where all but the last fail and the last succeeds or is the last one allowed; after the failing attempt
number `j` there is a pause of `retry_initial_delay * retry_backoff ^ j` (none if that is zero), and nothing comes after the last attempt. -/
theorem C298_pauses (initial backoff : Rat) (script : Nat → Rat × Bool) (retries : Nat) :
    ∃ m, m ≤ retries ∧ (∀ j, j < m → (script j).2 = false) ∧ ((script m).2 = true ∨ m = retries) ∧
      attempts backoff script retries 0 initial =
        (List.range m).flatMap (attemptAndPause initial backoff script) ++ [.call (script m).1] := by
  obtain ⟨m, h1, h2, h3, h4⟩ := attempts_shift backoff script retries 0 initial
  simp only [Nat.zero_add] at h2 h3 h4
  exact ⟨m, h1, h2, h3, h4⟩

/-- Sum of the durations of events. -/
def total : List Ev → Rat
  | [] => 0
  | e :: es => e.time + total es

theorem total_append (l l' : List Ev) : total (l ++ l') = total l + total l' := by
  induction l with
  | nil => simp [total, Rat.zero_add]
  | cons e es ih => simp only [List.cons_append, total, ih, Rat.add_assoc]

theorem total_pause (d : Rat) : total (pause d) = d := by
  unfold pause
  split
  · rename_i h; simp [total, h]
  · simp [total, Ev.time, Rat.add_zero]

/-- Sum of `f 0 … f (m - 1)`. -/
def sumTo (f : Nat → Rat) : Nat → Rat
  | 0 => 0
  | m + 1 => sumTo f m + f m

/-- C298, duration: processing an item that needs the attempts 0 … m takes the time of these attempts and `retry_initial_delay * retry_backoff ^ j` for each `j < m`. -/
theorem C298_duration (initial backoff : Rat) (script : Nat → Rat × Bool) (retries : Nat) :
    ∃ m, m ≤ retries ∧ (∀ j, j < m → (script j).2 = false) ∧ ((script m).2 = true ∨ m = retries) ∧
      total (attempts backoff script retries 0 initial) =
        sumTo (fun j => (script j).1) (m + 1) + sumTo (fun j => initial * backoff ^ j) m := by
  obtain ⟨m, h1, h2, h3, h4⟩ := C298_pauses initial backoff script retries
  refine ⟨m, h1, h2, h3, ?_⟩
  have key : ∀ m, total ((List.range m).flatMap (attemptAndPause initial backoff script)) =
      sumTo (fun j => (script j).1) m + sumTo (fun j => initial * backoff ^ j) m := by
    intro m
    induction m with
    | zero => simp [total, sumTo, Rat.add_zero]
    | succ m ih =>
      rw [List.range_succ, List.flatMap_append, total_append, ih]
      simp only [List.flatMap_cons, List.flatMap_nil, List.append_nil, attemptAndPause, total, total_pause, Ev.time, sumTo]
      grind
  rw [h4, total_append, key]
  simp only [total, Ev.time, sumTo]
  grind

/-- Two failures, then a success; initial delay 1, factor 2. -/
example : attempts 2 (fun k => (5, decide (k = 2))) 3 0 1 = [.call 5, .sleep 1, .call 5, .sleep 2, .call 5] := by decide +kernel

end Verif.AlcallTime

namespace Verif.Alcall

open Verif.Fanout Verif.AsyncCall Verif.ToList

variable {α : Type}

/-- The items whose processing is in progress. -/
def inProgress (p : Params) (script : Nat → Val α → Nat → Outcome) (l : List (Val α)) (k : Option Nat) (acts : List Act) : List Nat :=
  (List.range l.length).filter (fun i => (run (cfg p script l k) acts).st i == .running)

theorem semaphore_ok {m : Int} {k : Option Nat} (h : semaphore (some m) = .ok k) : 0 ≤ m ∧ k = some m.toNat := by
  simp only [semaphore] at h
  split at h
  · cases h
  · cases h; exact ⟨by omega, rfl⟩

theorem prepare_limit {H : Hashing α} {p : Params} {fn : Func} {keys : List (Val α)} {x : Input α} {l : List (Val α)} {k : Option Nat}
    (hp : prepare H p fn keys x = .ok (l, k)) : semaphore p.maxConcurrent = .ok k := by
  simp only [prepare] at hp
  split at hp
  · split at hp
    · cases hp
    · split at hp
      · cases hp
      · rename_i h; cases hp; exact h
  · cases hp

/-- Starting all tasks of a call without semaphore. -/
theorem start_all (c : Cfg) (hl : c.limit = none) (m : Nat) (hm : m ≤ c.n) :
    ∀ i, i < m → (((List.range m).map Act.start).foldl (step c) {}).st i = .running := by
  have key : ∀ m, m ≤ c.n → (∀ i, i < m → (((List.range m).map Act.start).foldl (step c) {}).st i = .running) ∧
      ∀ i, m ≤ i → (((List.range m).map Act.start).foldl (step c) {}).st i = .waiting := by
    intro m
    induction m with
    | zero => intro _; exact ⟨fun i h => absurd h (Nat.not_lt_zero i), fun i _ => rfl⟩
    | succ m ih =>
      intro h
      obtain ⟨h1, h2⟩ := ih (by omega)
      rw [List.range_succ, List.map_append, List.foldl_append]
      have hf : ∀ s, slotFree c s = true := fun s => by simp [slotFree, hl]
      have hst : ∀ s : Sys, s.st m = .waiting → step c s (.start m) = { s with st := upd s.st m .running } := by
        intro s hs
        simp only [step]
        rw [if_pos ⟨by omega, hs, hf s⟩]
      simp only [List.map_cons, List.map_nil, List.foldl_cons, List.foldl_nil]
      rw [hst _ (h2 m (Nat.le_refl _))]
      refine ⟨fun i hi => ?_, fun i hi => ?_⟩
      · simp only [upd]
        split
        · rfl
        · exact h1 i (by omega)
      · simp only [upd]
        split
        · omega
        · exact h2 i (by omega)
  exact (key m hm).1

/-- C299, exactly: a call with `max_concurrent = m` that is not rejected processes at most `m` items at the same time, under every schedule and whatever the function
does, if and only if `m` is not 0 or there is no item at all. -/
theorem C299_exact_partial {H : Hashing α} {p : Params} {m : Int} (hm : p.maxConcurrent = some m) {fn : Func} {keys : List (Val α)} {x : Input α}
    {l : List (Val α)} {k : Option Nat} (hp : prepare H p fn keys x = .ok (l, k)) :
    (∀ script acts, ((inProgress p script l k acts).length : Int) ≤ m) ↔ m ≠ 0 ∨ l = [] := by
  have hs := prepare_limit hp
  rw [hm] at hs
  obtain ⟨h0, hk⟩ := semaphore_ok hs
  constructor
  · intro h
    by_cases hz : m = 0
    · right
      subst hz
      have h1 := h (fun _ _ _ => .ok 0) ((List.range l.length).map Act.start)
      have hlim : (cfg p (fun _ _ _ => .ok 0) l k : Cfg).limit = none := by simp [cfg, alcallCfg, hk, effLimit]
      have h2 : (inProgress p (fun _ _ _ => .ok 0) l k ((List.range l.length).map Act.start)).length = l.length := by
        simp only [inProgress]
        rw [List.filter_eq_self.mpr, List.length_range]
        intro i hi
        have := start_all (cfg p (fun _ _ _ => .ok 0) l k) hlim l.length (Nat.le_refl _) i (List.mem_range.mp hi)
        simp only [run, this]; rfl
      rw [h2] at h1
      exact List.eq_nil_of_length_eq_zero (by omega)
    · exact .inl hz
  · rintro (h | h) script acts
    · obtain ⟨j, hj⟩ : ∃ j, m.toNat = j + 1 := ⟨m.toNat - 1, by omega⟩
      have := C43_bounded { retryAttempts := p.retryAttempts, default := p.default, maxConcurrent := k, returnExc := p.returnExc } j (by rw [hk, hj]) l.length
        (fun i => script i (l.getD i .na)) acts
      simp only [inProgress, cfg]
      omega
    · subst h; simp [inProgress, h0]

/-- C299 for positive limits. Missing: `max_concurrent = 0`. -/
theorem C299_partial {H : Hashing α} {p : Params} {m : Int} (hm : p.maxConcurrent = some m) (hz : m ≠ 0) {fn : Func} {keys : List (Val α)} {x : Input α}
    {l : List (Val α)} {k : Option Nat} (hp : prepare H p fn keys x = .ok (l, k)) (script : Nat → Val α → Nat → Outcome) (acts : List Act) :
    ((inProgress p script l k acts).length : Int) ≤ m :=
  (C299_exact_partial hm hp).mpr (.inl hz) script acts

/-- C299 is false for 0, which is accepted and means no limit: all items of any list are processed at the same time under some schedule. -/
theorem C299_violation (H : Hashing α) (vs : List (Val α)) :
    ∃ l k, prepare H { maxConcurrent := some 0 } .callable [] (.seq .list (ofList vs)) = .ok (l, k) ∧ l.length = vs.length ∧
      ∃ acts, (inProgress { maxConcurrent := some 0 } (fun _ _ _ => .ok 0) l k acts).length = vs.length := by
  have hlen : (items (ofList vs)) = vs := by
    induction vs with
    | nil => rfl
    | cons v vs ih => simp [ofList, items, ih]
  refine ⟨vs, some 0, ?_, rfl, (List.range vs.length).map Act.start, ?_⟩
  · simp [prepare, funcOk, inputItems, plainInput, semaphore, hlen]
  · simp only [inProgress]
    rw [List.filter_eq_self.mpr, List.length_range]
    intro i hi
    have := start_all (cfg { maxConcurrent := some 0 } (fun _ _ _ => .ok 0) vs (some 0)) rfl vs.length (Nat.le_refl _) i (List.mem_range.mp hi)
    simp only [run, this]; rfl

end Verif.Alcall
