import Verif.Props.Executor

/-!
# Which clean-ups keep the status lists consistent: the exact condition for C93
-/

set_option linter.unusedSectionVars false
set_option linter.unusedSimpArgs false
set_option linter.unusedVariables false

namespace Verif.Executor

open Verif.Event (Status)

variable {γ : Type} [DecidableEq γ]

/-! ### Specification -/

/-- A `process()` call has taken the event from the queue and asks for permission, or is about to file it as processing or aborted. -/
def Busy (pc : Processor.PC) (id : Nat) : Prop :=
  ∃ e : Processor.Entry, e.2 = id ∧ (pc = .asking e ∨ pc = .granted e ∨ pc = .aborting e)

/-- The event is in the hands of a `process()` call, or executing. -/
def InHand (s : Sys γ) (id : Nat) : Prop :=
  (∃ (p : Processor.Sys) (i : Nat) (cl : Processor.Call), s.proc = some p ∧ p.calls[i]? = some cl ∧ Busy cl.pc id) ∨ ∃ r ∈ s.runs, r.2 = id

/-- A clean-up (of any statuses) that removes no event that is in hand. -/
def SafeAt (s : Sys γ) : Act γ → Prop
  | .cleanup sts => ∀ st ∈ sts, ∀ id ∈ listed s.flow st, ¬ InHand s id
  | _ => True

/-- The same along a schedule. -/
def SafeRun (sub : γ → γ → Bool) (c : Processor.Cfg) : Sys γ → List (Act γ) → Prop
  | _, [] => True
  | s, a :: as => SafeAt s a ∧ SafeRun sub c (step sub c s a) as

/-! ### What the calls hold -/

theorem set_some {α : Type} {l : List α} {i j : Nat} {x y : α} (h : (l.set i x)[j]? = some y) : y = x ∨ l[j]? = some y := by
  rw [List.getElem?_set] at h
  split at h
  · split at h
    · exact Or.inl (Option.some.inj h).symm
    · cases h
  · exact Or.inr h

theorem not_busy {pc : Processor.PC} (h : fileOf pc = none) (h' : ∀ e, pc ≠ .asking e) (id : Nat) : ¬ Busy pc id := by
  rintro ⟨e, _, h1 | h1 | h1⟩
  · exact h' e h1
  · rw [h1] at h; cases h
  · rw [h1] at h; cases h

/-- What a call holds after a step it held before, or it has just taken it and found it stored. -/
theorem busy_advance {c : Processor.Cfg} {p : Processor.Sys} {i j : Nat} {cl cl' : Processor.Call} {found : Bool} {perm : Processor.Perm} (hi : p.calls[i]? = some cl)
    (h : (Processor.advance c p i cl found perm).calls[j]? = some cl') {id : Nat} (hb : Busy cl'.pc id) :
    (∃ (k : Nat) (cl0 : Processor.Call), p.calls[k]? = some cl0 ∧ Busy cl0.pc id) ∨ (found = true ∧ ∃ e q, Heapq.pop Processor.entryLt p.queue = some (e, q) ∧ e.2 = id) := by
  have old : ∀ (k : Nat) (x : Processor.Call), (p.calls.set i x)[k]? = some cl' → ¬ Busy x.pc id → ∃ (k : Nat) (cl0 : Processor.Call), p.calls[k]? = some cl0 ∧ Busy cl0.pc id := by
    intro k x hk hx
    rcases set_some hk with e | e
    · rw [e] at hb; exact absurd hb hx
    · exact ⟨k, cl', e, hb⟩
  have same : ∀ (k : Nat) (x : Processor.Call), (p.calls.set i x)[k]? = some cl' → (Busy x.pc id → Busy cl.pc id) → ∃ (k : Nat) (cl0 : Processor.Call), p.calls[k]? = some cl0 ∧ Busy cl0.pc id := by
    intro k x hk hx
    rcases set_some hk with e | e
    · rw [e] at hb; exact ⟨i, cl, hi, hx hb⟩
    · exact ⟨k, cl', e, hb⟩
  cases hpc : cl.pc with
  | check =>
    simp only [Processor.advance, hpc] at h
    split at h
    · exact Or.inl (old j _ h (not_busy rfl (by intro _ h; cases h) id))
    · exact Or.inl (old j _ h (not_busy rfl (by intro _ h; cases h) id))
  | getting =>
    simp only [Processor.advance, hpc] at h
    cases hq : Heapq.pop Processor.entryLt p.queue with
    | none => rw [hq] at h; exact Or.inl ⟨j, cl', h, hb⟩
    | some r =>
      obtain ⟨e, q⟩ := r
      rw [hq] at h
      simp only at h
      split at h
      · next hf =>
        rcases set_some (show (p.calls.set i _)[j]? = some cl' from h) with he | he
        · rw [he] at hb
          obtain ⟨e', h1, h2 | h2 | h2⟩ := hb
          · cases h2; exact Or.inr ⟨hf, e, q, rfl, h1⟩
          · cases h2
          · cases h2
        · exact Or.inl ⟨j, cl', he, hb⟩
      · exact Or.inl (old j _ h (not_busy rfl (by intro _ h; cases h) id))
  | asking e =>
    simp only [Processor.advance, hpc] at h
    cases perm with
    | grant =>
      refine Or.inl (same j _ h ?_)
      rintro ⟨e', h1, h2 | h2 | h2⟩
      · cases h2
      · cases h2; exact ⟨e, h1, Or.inl hpc⟩
      · cases h2
    | deny =>
      simp only [Processor.deny] at h
      split at h
      · refine Or.inl (same j _ h ?_)
        rintro ⟨e', h1, h2 | h2 | h2⟩
        · cases h2
        · cases h2
        · cases h2; exact ⟨e, h1, Or.inl hpc⟩
      · exact Or.inl (old j _ h (not_busy rfl (by intro _ h; cases h) id))
    | raise => exact Or.inl (old j _ h (not_busy rfl (by intro _ h; cases h) id))
  | granted e => simp only [Processor.advance, hpc] at h; exact Or.inl (old j _ h (not_busy rfl (by intro _ h; cases h) id))
  | aborting e => simp only [Processor.advance, hpc] at h; exact Or.inl (old j _ h (not_busy rfl (by intro _ h; cases h) id))
  | requeueing e n => simp only [Processor.advance, hpc] at h; exact Or.inl (old j _ h (not_busy rfl (by intro _ h; cases h) id))
  | draining =>
    simp only [Processor.advance, hpc] at h
    split at h
    · exact Or.inl (old j _ h (not_busy rfl (by intro _ h; cases h) id))
    · exact Or.inl (old j _ h (not_busy rfl (by intro _ h; cases h) id))
  | done => simp only [Processor.advance, hpc] at h; exact Or.inl ⟨j, cl', h, hb⟩
  | failed => simp only [Processor.advance, hpc] at h; exact Or.inl ⟨j, cl', h, hb⟩

/-- Holding only what was held. -/
def Less (p q : Processor.Sys) : Prop := ∀ (j : Nat) cl', q.calls[j]? = some cl' → ∀ id, Busy cl'.pc id → ∃ (k : Nat) (cl0 : Processor.Call), p.calls[k]? = some cl0 ∧ Busy cl0.pc id

theorem Less.of_calls {p q : Processor.Sys} (h : q.calls = p.calls) : Less p q := fun j cl' hj id hb => ⟨j, cl', by rw [← h]; exact hj, hb⟩

theorem enqueue_calls (c : Processor.Cfg) (p : Processor.Sys) (id : Nat) (prio : Option Processor.Prio) (t : Option Int) : (Processor.enqueue c p id prio t).calls = p.calls := by
  unfold Processor.enqueue
  split
  · rfl
  · cases prio with
    | none => cases t <;> rfl
    | some q => cases q <;> rfl

theorem enqPut_calls (p : Processor.Sys) (k : Nat) : (Processor.enqPut p k).calls = p.calls := by
  unfold Processor.enqPut
  split <;> rfl

theorem cancel_less (c : Processor.Cfg) (p : Processor.Sys) (i : Nat) : Less p (Processor.step c p (.cancel i)) := by
  intro j cl' hj id hb
  simp only [Processor.step] at hj
  cases hi : p.calls[i]? with
  | none => rw [hi] at hj; exact ⟨j, cl', hj, hb⟩
  | some cl =>
    rw [hi] at hj
    simp only at hj
    split at hj
    · exact ⟨j, cl', hj, hb⟩
    · rcases set_some (show (p.calls.set i _)[j]? = some cl' from hj) with e | e
      · rw [e] at hb; exact absurd hb (not_busy rfl (by intro _ h; cases h) id)
      · exact ⟨j, cl', e, hb⟩

theorem process_less (c : Processor.Cfg) (p : Processor.Sys) : Less p (Processor.step c p .process) := by
  intro j cl' hj id hb
  simp only [Processor.step] at hj
  rw [List.getElem?_append] at hj
  split at hj
  · exact ⟨j, cl', hj, hb⟩
  · have : cl' = {} := by
      cases hn : j - p.calls.length with
      | zero => rw [hn] at hj; exact (Option.some.inj hj).symm
      | succ n => rw [hn] at hj; cases hj
    rw [this] at hb
    exact absurd hb (not_busy rfl (by intro _ h; cases h) id)

theorem forgetAll_calls (c : Processor.Cfg) (ids : List Nat) : ∀ (p : Processor.Sys), (forgetAll c p ids).calls = p.calls := by
  induction ids with
  | nil => intro p; rfl
  | cons x xs ih => intro p; exact (ih _).trans rfl

/-! ### The invariant -/

/-- The lists partition the stored events, and every event in hand is stored. -/
structure HeldStored (pid : Status → Nat) (s : Sys γ) : Prop where
  eg : EGood pid s.flow
  part : Part s.flow
  stored : ∀ id, InHand s id → id ∈ s.flow.items.order

theorem HeldStored.mono {pid : Status → Nat} {s s' : Sys γ} (h : HeldStored pid s) (hf : s'.flow = s.flow) (hi : ∀ id, InHand s' id → InHand s id) : HeldStored pid s' :=
  ⟨by rw [hf]; exact h.eg, by rw [hf]; exact h.part, fun id hid => by rw [hf]; exact h.stored id (hi id hid)⟩

theorem inHand_map {s : Sys γ} {f : EFlow γ} {g : Processor.Sys → Processor.Sys} {b : List Nat} (hg : ∀ p, Less p (g p)) (id : Nat)
    (h : InHand { s with flow := f, proc := s.proc.map g, backfill := b } id) : InHand s id := by
  rcases h with ⟨p, i, cl, hp, hc, hb⟩ | h
  · cases hs : s.proc with
    | none => simp only [hs, Option.map_none] at hp; cases hp
    | some q =>
      simp only [hs, Option.map_some, Option.some.injEq] at hp
      subst hp
      obtain ⟨k, cl0, h1, h2⟩ := hg q i cl hc id hb
      exact Or.inl ⟨q, k, cl0, hs, h1, h2⟩
  · exact Or.inr h

theorem HeldStored.goOn {pid : Status → Nat} {s : Sys γ} (h : HeldStored pid s) (c : Processor.Cfg) {p : Processor.Sys} (hp : s.proc = some p) {i : Nat}
    {cl : Processor.Call} (hi : p.calls[i]? = some cl) (perm : Processor.Perm) : HeldStored pid (goOn c s p i cl perm) := by
  unfold Executor.goOn
  cases hfo : fileOf cl.pc with
  | none =>
    simp only
    refine ⟨h.eg, h.part, ?_⟩
    rintro id (⟨q, j, cl', hq, hj, hb⟩ | hr)
    · simp only [Option.some.injEq] at hq
      subst hq
      simp only [Processor.step, hi] at hj
      rcases busy_advance hi hj hb with ⟨k, cl0, h1, h2⟩ | ⟨hf, e, q, hpop, he⟩
      · exact h.stored id (Or.inl ⟨p, k, cl0, hp, h1, h2⟩)
      · unfold found at hf
        rw [hpop] at hf
        simp only at hf
        show id ∈ s.flow.items.order
        rw [h.eg.good.piles.items.mem_iff, ← he]
        exact (Dict.has_iff _ _).1 hf
    · exact h.stored id (Or.inr hr)
  | some r =>
    obtain ⟨x, st⟩ := r
    have hb : Busy cl.pc x ∧ ∀ y, startOf cl.pc = some y → y = x := by
      cases hpc : cl.pc with
      | granted e => rw [hpc] at hfo; cases hfo; exact ⟨⟨e, rfl, Or.inr (Or.inl rfl)⟩, fun y hy => by cases hy; rfl⟩
      | aborting e => rw [hpc] at hfo; cases hfo; exact ⟨⟨e, rfl, Or.inr (Or.inr rfl)⟩, fun y hy => by cases hy⟩
      | _ => rw [hpc] at hfo; cases hfo
    have hx : x ∈ s.flow.items.order := h.stored x (Or.inl ⟨p, i, cl, hp, hi, hb.1⟩)
    obtain ⟨f', h1, h2, h3, h4, h5⟩ := Part.update h.eg h.part hx st
    simp only [h1]
    refine ⟨h2, h4, ?_⟩
    show ∀ id, _ → id ∈ f'.items.order
    rw [h3]
    rintro id (⟨q, j, cl', hq, hj, hb'⟩ | ⟨r, hr, hid⟩)
    · simp only [Option.some.injEq] at hq
      subst hq
      simp only [Processor.step, hi] at hj
      rcases busy_advance hi hj hb' with ⟨k, cl0, h1, h2⟩ | ⟨hf, e, q, hpop, he⟩
      · exact h.stored id (Or.inl ⟨p, k, cl0, hp, h1, h2⟩)
      · have hng : cl.pc ≠ .getting := by intro hg; rw [hg] at hfo; cases hfo
        have hno : ∀ (k : Nat) (cl0 : Processor.Call), (p.calls.set i cl0)[j]? = some cl' → ¬ Busy cl0.pc id → ∃ (k : Nat) (cl0 : Processor.Call), p.calls[k]? = some cl0 ∧ Busy cl0.pc id := by
          intro k cl0 hk hx
          rcases set_some hk with e | e
          · rw [e] at hb'; exact absurd hb' hx
          · exact ⟨j, cl', e, hb'⟩
        cases hpc : cl.pc with
        | granted e' =>
          simp only [Processor.advance, hpc] at hj
          obtain ⟨k, cl0, h1, h2⟩ := hno j _ hj (not_busy rfl (by intro _ h; cases h) id)
          exact h.stored id (Or.inl ⟨p, k, cl0, hp, h1, h2⟩)
        | aborting e' =>
          simp only [Processor.advance, hpc] at hj
          obtain ⟨k, cl0, h1, h2⟩ := hno j _ hj (not_busy rfl (by intro _ h; cases h) id)
          exact h.stored id (Or.inl ⟨p, k, cl0, hp, h1, h2⟩)
        | _ => rw [hpc] at hfo; cases hfo
    · simp only [List.mem_append] at hr
      rcases hr with hr | hr
      · exact h.stored id (Or.inr ⟨r, hr, hid⟩)
      · cases hs : startOf cl.pc with
        | none => rw [hs] at hr; cases hr
        | some y =>
          rw [hs] at hr
          simp only [Option.map_some, Option.toList_some, List.mem_singleton] at hr
          rw [← hid, hr]
          simp only
          rw [hb.2 y hs]
          exact hx

theorem HeldStored.step {pid : Status → Nat} {s : Sys γ} (h : HeldStored pid s) (sub : γ → γ → Bool) (c : Processor.Cfg) (a : Act γ) (hg : SafeAt s a) :
    HeldStored pid (step sub c s a) := by
  cases a with
  | append ev prio =>
    simp only [Executor.step]
    rcases addEvent_cases h.eg sub ev with ⟨e, he⟩ | ⟨hk, f', he, h1, h2, h3⟩
    · rw [he]; exact h
    · rw [he]
      simp only
      have hnew : ev.id ∉ s.flow.items.order := by rw [h.eg.good.piles.items.mem_iff]; exact hk
      have hpart : Part f' := by
        intro y
        have hc : ∀ t y, (listed f' t).count y = (listed s.flow t).count y + (if t = .pending ∧ ev.id = y then 1 else 0) := by
          intro t y
          rw [h3, List.count_append]
          by_cases e : t = .pending <;> by_cases e' : ev.id = y <;> simp [e, e', List.count_singleton]
        have := h.part y
        rw [total_eq] at this ⊢
        simp only [hc]
        rw [h2]
        by_cases e' : ev.id = y
        · subst e'
          rw [if_neg hnew] at this
          simp; omega
        · have e'' : y ≠ ev.id := fun h => e' h.symm
          simp [e', e'']
          exact this
      refine ⟨h1, hpart, fun id hid => ?_⟩
      show id ∈ f'.items.order
      rw [h2]
      have := inHand_map (s := s) (f := f') (g := fun p => enqueue c f' p ev.id prio) (b := s.backfill)
        (fun p => Less.of_calls (enqueue_calls c p ev.id prio _)) id hid
      exact List.mem_append_left _ (h.stored id this)
  | start =>
    simp only [Executor.step]
    cases hs : s.proc with
    | some q => exact h
    | none =>
      obtain ⟨e1, e2⟩ := getEvents_ok h.eg h.part .pending
      simp only [e1, e2]
      refine h.mono rfl ?_
      rintro id (⟨p, i, cl, hp, hc, hb⟩ | hr)
      · cases hp; cases hc
      · exact Or.inr hr
  | fill =>
    simp only [Executor.step]
    cases hs : s.proc with
    | none => exact h
    | some q =>
      cases hb : s.backfill with
      | nil => exact h
      | cons x xs =>
        simp only
        refine h.mono rfl ?_
        rintro id (⟨p, i, cl, hp, hc, hb⟩ | hr)
        · simp only [Option.some.injEq] at hp
          subst hp
          rw [show (enqueue c s.flow q x none).calls = q.calls from enqueue_calls c q x none _] at hc
          exact Or.inl ⟨q, i, cl, hs, hc, hb⟩
        · exact Or.inr hr
  | enqPut k => exact h.mono rfl (fun id hid => inHand_map (f := s.flow) (b := s.backfill) (fun p => Less.of_calls (enqPut_calls p k)) id hid)
  | forward => exact h.mono rfl (fun id hid => inHand_map (f := s.flow) (b := s.backfill) (fun p => process_less c p) id hid)
  | go i perm =>
    simp only [Executor.step]
    cases hs : s.proc with
    | none => exact h
    | some p =>
      simp only
      cases hi : p.calls[i]? with
      | none => exact h
      | some cl =>
        simp only
        split
        · exact h
        · exact h.goOn c hs hi perm
  | cancel i => exact h.mono rfl (fun id hid => inHand_map (f := s.flow) (b := s.backfill) (fun p => cancel_less c p i) id hid)
  | finish k st =>
    simp only [Executor.step]
    cases hk : s.runs[k]? with
    | none => exact h
    | some r =>
      simp only
      have hx : r.2 ∈ s.flow.items.order := h.stored r.2 (Or.inr ⟨r, List.mem_of_getElem? hk, rfl⟩)
      obtain ⟨f', h1, h2, h3, h4, h5⟩ := Part.update h.eg h.part hx st
      rw [h1]
      refine ⟨h2, h4, ?_⟩
      show ∀ id, _ → id ∈ f'.items.order
      rw [h3]
      rintro id (hc | ⟨r', hr', hid⟩)
      · exact h.stored id (Or.inl hc)
      · exact h.stored id (Or.inr ⟨r', (List.eraseIdx_sublist _ _).mem hr', hid⟩)
  | vanish k =>
    refine h.mono rfl ?_
    rintro id (hc | ⟨r', hr', hid⟩)
    · exact Or.inl hc
    · exact Or.inr ⟨r', (List.eraseIdx_sublist _ _).mem hr', hid⟩
  | stop => exact h.mono rfl (fun id hid => inHand_map (f := s.flow) (b := s.backfill) (g := fun p => Processor.step c p .stop) (fun p => Less.of_calls rfl) id hid)
  | cleanup sts =>
    simp only [Executor.step]
    obtain ⟨f', ids, h1, h2, h3, h4⟩ := cleanup_ok sts s.flow h.eg h.part
    rw [h1]
    simp only
    refine ⟨h2, h3, fun id hid => ?_⟩
    have hin : InHand s id := inHand_map (f := f') (b := s.backfill) (fun p => Less.of_calls (forgetAll_calls c ids p)) id hid
    show id ∈ f'.items.order
    rw [h4.order, List.mem_filter]
    refine ⟨h.stored id hin, decide_eq_true ?_⟩
    intro hm
    obtain ⟨st, hst, hl⟩ := (h4.removed id).1 hm
    exact hg st hst id hl hin

theorem HeldStored.run {pid : Status → Nat} (sub : γ → γ → Bool) (c : Processor.Cfg) (as : List (Act γ)) {s : Sys γ} (h : HeldStored pid s)
    (hg : SafeRun sub c s as) : HeldStored pid (run sub c s as) := by
  induction as generalizing s with
  | nil => exact h
  | cons a as ih => exact ih (h.step sub c a hg.1) hg.2

/-! ### The exact condition -/

theorem Consistent.stored {f : EFlow γ} (h : Consistent f) {st : Status} {id : Nat} (hid : id ∈ listed f st) : id ∈ f.items.order :=
  h.2.1.mem_iff.1 (List.mem_flatMap.2 ⟨st, by cases st <;> simp [Status.all], hid⟩)

/-- Schedules that only let calls go on and executions end. -/
def Onward : List (Act γ) → Prop
  | [] => True
  | .go _ _ :: as => Onward as
  | .finish _ _ :: as => Onward as
  | _ :: _ => False

theorem Onward.safe {sub : γ → γ → Bool} {c : Processor.Cfg} : ∀ (as : List (Act γ)) (s : Sys γ), Onward as → SafeRun sub c s as
  | [], _, _ => trivial
  | .go _ _ :: as, s, h => ⟨trivial, Onward.safe as _ h⟩
  | .finish _ _ :: as, s, h => ⟨trivial, Onward.safe as _ h⟩
  | .append _ _ :: _, _, h => h.elim
  | .start :: _, _, h => h.elim
  | .fill :: _, _, h => h.elim
  | .enqPut _ :: _, _, h => h.elim
  | .forward :: _, _, h => h.elim
  | .cancel _ :: _, _, h => h.elim
  | .vanish _ :: _, _, h => h.elim
  | .stop :: _, _, h => h.elim
  | .cleanup _ :: _, _, h => h.elim

/-- Filing an event lists it. -/
theorem filed_missing {pid : Status → Nat} {s : Sys γ} (hE : EGood pid s.flow) {id : Nat} (hn : id ∉ s.flow.items.order) (st : Status) :
    ∃ f', updateProgression s.flow id st = (f', .ok ()) ∧ ¬ Consistent f' := by
  obtain ⟨f', h1, h2, h3, h4⟩ := update_spec hE id st
  refine ⟨f', h1, fun hc => hn ?_⟩
  rw [← h3]
  refine hc.stored (st := st) ?_
  rw [h4, if_pos rfl]
  exact List.mem_append_right _ List.mem_cons_self

/-- A call that is about to file an event goes on. -/
theorem filing_go {pid : Status → Nat} (sub : γ → γ → Bool) (c : Processor.Cfg) {s : Sys γ} (hE : EGood pid s.flow) {id : Nat} (hn : id ∉ s.flow.items.order)
    {p : Processor.Sys} {i : Nat} {cl : Processor.Call} (hp : s.proc = some p) (hi : p.calls[i]? = some cl) {st : Status} (hf : fileOf cl.pc = some (id, st))
    (hd : cl.pc ≠ .draining) : ¬ Consistent (step sub c s (.go i .grant)).flow := by
  obtain ⟨f', h1, h2⟩ := filed_missing hE hn st
  have hw : waitsFor s i cl = false := by
    unfold waitsFor
    have : (cl.pc == Processor.PC.draining) = false := by
      cases hb : cl.pc == Processor.PC.draining with
      | false => rfl
      | true => exact absurd (eq_of_beq hb) hd
    rw [this]
    rfl
  simp only [Executor.step, hp, hi, hw, Executor.goOn, hf, h1]
  exact h2

/-- From a state where an event in hand is not stored, the calls and executions only have to go on. -/
theorem inHand_breaks {pid : Status → Nat} (sub : γ → γ → Bool) (c : Processor.Cfg) {s : Sys γ} (hE : EGood pid s.flow) {id : Nat} (hn : id ∉ s.flow.items.order)
    (h : InHand s id) : ∃ as', Onward as' ∧ ¬ Consistent (run sub c s as').flow := by
  rcases h with ⟨p, i, cl, hp, hi, e, he, h | h | h⟩ | ⟨r, hr, he⟩
  · have hw : waitsFor s i cl = false := by
      unfold waitsFor
      rw [h]
      rfl
    have hlt : i < p.calls.length := (List.getElem?_eq_some_iff.1 hi).1
    obtain ⟨p', hadv, hc⟩ : ∃ p' : Processor.Sys, step sub c s (.go i .grant) = { s with proc := some p' } ∧ p'.calls = p.calls.set i { cl with pc := .granted e } := by
      refine ⟨Processor.advance c p i cl (found s.flow p) .grant, ?_, ?_⟩
      · simp only [Executor.step, hp, hi, hw, Executor.goOn, h, fileOf, Processor.step, Bool.false_eq_true, if_false]
      · simp only [Processor.advance, h]
        rfl
    refine ⟨[.go i .grant, .go i .grant], trivial, ?_⟩
    show ¬ Consistent (step sub c (step sub c s (.go i .grant)) (.go i .grant)).flow
    rw [hadv]
    refine filing_go sub c (s := { s with proc := some p' }) hE hn rfl (i := i)
      (cl := { cl with pc := .granted e }) ?_ (st := .processing) ?_ (by intro h; cases h)
    · rw [hc, List.getElem?_set_self hlt]
    · simp only [fileOf, he]
  · refine ⟨[.go i .grant], trivial, filing_go sub c hE hn hp hi (st := .processing) ?_ (by rw [h]; intro h; cases h)⟩
    rw [h]; simp only [fileOf, he]
  · refine ⟨[.go i .grant], trivial, filing_go sub c hE hn hp hi (st := .aborted) ?_ (by rw [h]; intro h; cases h)⟩
    rw [h]; simp only [fileOf, he]
  · obtain ⟨k, hk⟩ := List.getElem?_of_mem hr
    obtain ⟨f', h1, h2⟩ := filed_missing hE hn .completed
    refine ⟨[.finish k .completed], trivial, ?_⟩
    show ¬ Consistent (step sub c s (.finish k .completed)).flow
    simp only [Executor.step, hk, he, h1]
    exact h2

theorem held_init {pid : Status → Nat} (inj : ∀ a b, pid a = pid b → a = b) (cls : List γ) (strict : Bool) : HeldStored pid (init pid cls strict) := by
  have h := j_init (γ := γ) inj cls strict
  refine ⟨h.eg, h.part, ?_⟩
  rintro id (⟨p, i, cl, hp, hi, hb⟩ | ⟨r, hr, _⟩)
  · cases hp
  · cases hr

theorem run_append (sub : γ → γ → Bool) (c : Processor.Cfg) (s : Sys γ) (as bs : List (Act γ)) : run sub c s (as ++ bs) = run sub c (run sub c s as) bs :=
  List.foldl_append

/-- C93 asks that the lists stay consistent under clean-ups of any status at any moment.  Exactly: after any history whose clean-ups removed no event in hand, a further
clean-up (of any statuses) keeps them consistent through every later history of the same kind if and only if it removes no event in hand itself, that is, none that a
`process()` call has taken from the queue and is asking permission for or about to file, and none that is executing.  In particular the clean-up of events that merely
wait, in the queue or for a renewed attempt, does no harm. -/
theorem C93_exact_partial {pid : Status → Nat} (inj : ∀ a b, pid a = pid b → a = b) (cls : List γ) (strict : Bool) (sub : γ → γ → Bool) (c : Processor.Cfg)
    (as : List (Act γ)) (hg : SafeRun sub c (init pid cls strict) as) (sts : List Status) :
    (∀ as', SafeRun sub c (run sub c (init pid cls strict) (as ++ [.cleanup sts])) as' →
      Consistent (run sub c (init pid cls strict) (as ++ .cleanup sts :: as')).flow) ↔
    ∀ st ∈ sts, ∀ id ∈ listed (run sub c (init pid cls strict) as).flow st, ¬ InHand (run sub c (init pid cls strict) as) id := by
  have hH := (held_init (γ := γ) inj cls strict).run sub c as hg
  have e1 : run sub c (init pid cls strict) (as ++ [.cleanup sts]) = step sub c (run sub c (init pid cls strict) as) (.cleanup sts) := run_append ..
  rw [e1]
  have e2 : ∀ as', run sub c (init pid cls strict) (as ++ .cleanup sts :: as') = run sub c (step sub c (run sub c (init pid cls strict) as) (.cleanup sts)) as' :=
    fun as' => run_append ..
  simp only [e2]
  generalize run sub c (init pid cls strict) as = s at hH
  constructor
  · intro h st hst id hid hin
    obtain ⟨f', ids, h1, h2, h3, h4⟩ := cleanup_ok sts s.flow hH.eg hH.part
    have hs : step sub c s (.cleanup sts) = { s with flow := f', proc := s.proc.map (fun p => forgetAll c p ids) } := by
      simp only [Executor.step, h1]
    rw [hs] at h
    have hn : id ∉ f'.items.order := by
      rw [h4.order, List.mem_filter]
      rintro ⟨_, hd⟩
      exact (of_decide_eq_true hd) ((h4.removed id).2 ⟨st, hst, hid⟩)
    have hin' : InHand { s with flow := f', proc := s.proc.map (fun p => forgetAll c p ids) } id := by
      rcases hin with ⟨p, i, cl, hp, hi, hb⟩ | hr
      · refine Or.inl ⟨forgetAll c p ids, i, cl, ?_, ?_, hb⟩
        · simp only [hp, Option.map_some]
        · rw [forgetAll_calls]; exact hi
      · exact Or.inr hr
    obtain ⟨as', ho, hbad⟩ := inHand_breaks (pid := pid) sub c (s := { s with flow := f', proc := s.proc.map (fun p => forgetAll c p ids) }) h2 hn hin'
    exact hbad (h as' (Onward.safe as' _ ho))
  · intro h as' hs
    have hH' := (hH.step sub c (.cleanup sts) h).run sub c as' hs
    exact consistent_of hH'.eg hH'.part

/-- C31's effect of a clean-up, in every state reached by clean-ups that removed no event in hand. -/
theorem C31_cleanup_safe {pid : Status → Nat} (inj : ∀ a b, pid a = pid b → a = b) (cls : List γ) (strict : Bool) (sub : γ → γ → Bool) (c : Processor.Cfg)
    (as : List (Act γ)) (hg : SafeRun sub c (init pid cls strict) as) (sts : List Status) :
    let f := (run sub c (init pid cls strict) as).flow
    ∃ f' ids, cleanup f sts = (f', ids, none) ∧
      f'.items.order = f.items.order.filter (fun u => decide (¬ ∃ st ∈ sts, u ∈ listed f st)) ∧
      f'.items.order.length + ids.length = f.items.order.length ∧
      (∀ u ∈ f'.items.order, f'.items.items.get? u = f.items.items.get? u) ∧
      (∀ u, u ∉ f'.items.order → f'.items.items.get? u = none) ∧
      (∀ st, listed f' st = if st ∈ sts then [] else listed f st) := by
  intro f
  have h := (held_init (γ := γ) inj cls strict).run sub c as hg
  exact cleanup_effect h.eg h.part sts

/-- The condition is weaker than that of `C93_any_cleanup_partial`: here one event waits in the queue and the other is executing; cleaning up the pending ones is harmless,
though the first is still queued and will be taken by the call. -/
def halfway : List (Act Unit) :=
  [.append (ev0 1 10) none, .start, .fill, .append (ev0 2 5) none, .enqPut 0, .enqPut 0, .forward, .go 0 .grant, .go 0 .grant, .go 0 .grant, .go 0 .grant]

example : SafeRun (fun _ _ => true) cfg0 (init pid0 [()] false) halfway := by
  simp only [halfway, SafeRun, SafeAt, and_self]

example : listed (run (fun _ _ => true) cfg0 (init pid0 [()] false) halfway).flow .pending = [1] ∧
    listed (run (fun _ _ => true) cfg0 (init pid0 [()] false) halfway).flow .processing = [2] := by decide

example : (run (fun _ _ => true) cfg0 (init pid0 [()] false) halfway).runs = [(0, 2)] ∧
    (run (fun _ _ => true) cfg0 (init pid0 [()] false) halfway).proc.map (fun p => (p.queue, p.calls.map (·.pc))) = some ([(10, 1)], [.check]) := by decide

/-- Both sides occur. -/
example : InHand (run (fun _ _ => true) cfg0 (init pid0 [()] false) halfway) 2 := Or.inr ⟨(0, 2), by decide, rfl⟩

example : ∀ st ∈ [Status.pending], ∀ id ∈ listed (run (fun _ _ => true) cfg0 (init pid0 [()] false) halfway).flow st,
    ¬ InHand (run (fun _ _ => true) cfg0 (init pid0 [()] false) halfway) id := by
  have h1 : listed (run (fun _ _ => true) cfg0 (init pid0 [()] false) halfway).flow .pending = [1] := by decide
  have h2 : (run (fun _ _ => true) cfg0 (init pid0 [()] false) halfway).proc.map (fun p => p.calls.map (·.pc)) = some [.check] := by decide
  have h3 : (run (fun _ _ => true) cfg0 (init pid0 [()] false) halfway).runs = [(0, 2)] := by decide
  intro st hst id hid
  cases List.mem_singleton.1 hst
  rw [h1] at hid
  cases List.mem_singleton.1 hid
  generalize run (fun _ _ => true) cfg0 (init pid0 [()] false) halfway = s at h2 h3
  rintro (⟨p, i, cl, hp, hi, e, he, hb⟩ | ⟨r, hr, he⟩)
  · rw [hp] at h2
    simp only [Option.map_some, Option.some.injEq] at h2
    have hm : cl.pc ∈ p.calls.map (·.pc) := List.mem_map.2 ⟨cl, List.mem_of_getElem? hi, rfl⟩
    rw [h2, List.mem_singleton] at hm
    rw [hm] at hb
    rcases hb with h | h | h <;> cases h
  · rw [h3, List.mem_singleton] at hr
    rw [hr] at he
    cases he

end Verif.Executor
