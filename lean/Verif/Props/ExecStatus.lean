import Verif.Model.ExecStatus
import Verif.Props.Streaming

/-!
# C284: the events an executor returns for a status have this status
-/

set_option linter.unusedSectionVars false
set_option linter.unusedSimpArgs false
set_option linter.unusedVariables false

namespace Verif.ExecStatus

open Verif.Event (Status)
open Verif.Executor (EFlow Ev listed J Part GentleAt)

variable {γ : Type} [DecidableEq γ]

/-! ### Specification -/

/-- Events are appended while pending. -/
def Fresh (s : Sys γ) : Act γ → Prop
  | .base (.append ev _) => s.own ev.id = .pending
  | _ => True

/-- Clean-ups spare queued, held and executing events, as in C93. -/
def Mild (s : Sys γ) : Act γ → Prop
  | .base a => GentleAt s.ex a
  | _ => True

/-- Both along a schedule. -/
def Usual (sub : γ → γ → Bool) (c : Processor.Cfg) : Sys γ → List (Act γ) → Prop
  | _, [] => True
  | s, a :: as => Fresh s a ∧ Mild s a ∧ Usual sub c (step sub c s a) as

/-! ### How the lists change -/

theorem listed_goOn {pid : Status → Nat} {s : Executor.Sys γ} (h : J pid s) (c : Processor.Cfg) {p : Processor.Sys} (hp : s.proc = some p) {i : Nat}
    {cl : Processor.Call} (hi : p.calls[i]? = some cl) (perm : Processor.Perm) (st : Status) (id : Nat) (hm : id ∈ listed (Executor.goOn c s p i cl perm).flow st) :
    id ∈ listed s.flow st ∨ (st = .processing ∨ st = .aborted) ∧ id ∈ listed s.flow .pending := by
  unfold Executor.goOn at hm
  cases hfo : Executor.fileOf cl.pc with
  | none => rw [hfo] at hm; exact Or.inl hm
  | some r =>
    obtain ⟨x, st'⟩ := r
    obtain ⟨hh, _, _, hst⟩ := Executor.fileOf_holds hfo
    have hpend : x ∈ listed s.flow .pending := by
      have h1 := Executor.waiting_pos hi hh
      have h2 := h.pend x
      have h3 : Executor.load p x ≤ Executor.waiting s x := by simp only [Executor.waiting, hp]; omega
      exact List.count_pos_iff.1 (by omega)
    obtain ⟨f', h1, h2, h3, h4, h5⟩ := Part.update h.eg h.part (h.part.mem hpend) st'
    simp only [hfo, h1] at hm
    rw [h5, List.mem_append] at hm
    rcases hm with hm | hm
    · exact Or.inl (List.mem_of_mem_erase hm)
    · split at hm
      · next e =>
        cases List.mem_singleton.1 hm
        rcases hst with ⟨hst, _⟩ | ⟨hst, _⟩
        · exact Or.inr ⟨Or.inl (e.trans hst), hpend⟩
        · exact Or.inr ⟨Or.inr (e.trans hst), hpend⟩
      · cases hm

theorem listed_step {pid : Status → Nat} {s : Executor.Sys γ} (h : J pid s) (sub : γ → γ → Bool) (c : Processor.Cfg) (a : Executor.Act γ) (ha : ends a = false)
    (st : Status) (id : Nat) (hm : id ∈ listed (Executor.step sub c s a).flow st) :
    id ∈ listed s.flow st ∨ (st = .processing ∨ st = .aborted) ∧ id ∈ listed s.flow .pending ∨ (st = .pending ∧ ∃ ev prio, a = .append ev prio ∧ id = ev.id) := by
  cases a with
  | append ev prio =>
    simp only [Executor.step] at hm
    rcases Executor.addEvent_cases h.eg sub ev with ⟨e, he⟩ | ⟨hk, f', he, h1, h2, h3⟩
    · rw [he] at hm; exact Or.inl hm
    · rw [he] at hm
      simp only [h3, List.mem_append] at hm
      rcases hm with hm | hm
      · exact Or.inl hm
      · split at hm
        · next e => exact Or.inr (Or.inr ⟨e, ev, prio, rfl, List.mem_singleton.1 hm⟩)
        · cases hm
  | start =>
    simp only [Executor.step] at hm
    cases hs : s.proc with
    | some q => rw [hs] at hm; exact Or.inl hm
    | none =>
      obtain ⟨e1, e2⟩ := Executor.getEvents_ok h.eg h.part .pending
      simp only [hs, e1] at hm
      exact Or.inl hm
  | fill =>
    simp only [Executor.step] at hm
    cases hs : s.proc with
    | none => rw [hs] at hm; exact Or.inl hm
    | some q =>
      rw [hs] at hm
      cases hb : s.backfill with
      | nil => rw [hb] at hm; exact Or.inl hm
      | cons x xs => rw [hb] at hm; exact Or.inl hm
  | enqPut k => exact Or.inl hm
  | forward => exact Or.inl hm
  | go i perm =>
    simp only [Executor.step] at hm
    cases hs : s.proc with
    | none => rw [hs] at hm; exact Or.inl hm
    | some p =>
      rw [hs] at hm
      simp only at hm
      cases hi : p.calls[i]? with
      | none => rw [hi] at hm; exact Or.inl hm
      | some cl =>
        rw [hi] at hm
        simp only at hm
        split at hm
        · exact Or.inl hm
        · rcases listed_goOn h c hs hi perm st id hm with h | h
          · exact Or.inl h
          · exact Or.inr (Or.inl h)
  | cancel i => exact Or.inl hm
  | finish k st => cases ha
  | vanish k => cases ha
  | stop => exact Or.inl hm
  | cleanup sts =>
    simp only [Executor.step] at hm
    obtain ⟨f', ids, h1, h2, h3, h4⟩ := Executor.cleanup_ok sts s.flow h.eg h.part
    rw [h1] at hm
    simp only [h4.lists] at hm
    split at hm
    · cases hm
    · exact Or.inl hm

/-! ### The invariant -/

/-- What an event in the list `st` may have as its own status. -/
def Pair : Status → Status → Prop
  | .pending, own => own = .pending
  | .aborted, own => own = .pending
  | .processing, own => own ≠ .aborted ∧ own ≠ .skipped
  | .skipped, _ => False
  | st, own => own = st

structure Inv (pid : Status → Nat) (s : Sys γ) : Prop where
  j : J pid s.ex
  pair : ∀ st id, id ∈ listed s.ex.flow st → Pair st (s.own id)

theorem assign_other {own : Nat → Status} {id x : Nat} {st : Status} (h : x ≠ id) : assign own id st x = own x := if_neg h

theorem assign_self {own : Nat → Status} {id : Nat} {st : Status} : assign own id st id = st := if_pos rfl

theorem entered_cases (own : Nat → Status) (id x : Nat) : entered own id x = own x ∨ x = id ∧ entered own id x = .processing := by
  unfold entered
  split
  · by_cases h : x = id
    · subst h; exact Or.inr ⟨rfl, assign_self⟩
    · exact Or.inl (assign_other h)
  · exact Or.inl rfl

theorem left_cases (own : Nat → Status) (id x : Nat) (e : Ending) :
    left own id e x = own x ∨ x = id ∧ (left own id e x = .completed ∨ left own id e x = .failed ∨ left own id e x = .cancelled) := by
  unfold left
  cases h : assigned e with
  | none => exact Or.inl rfl
  | some st =>
    simp only
    split
    · by_cases hx : x = id
      · subst hx
        refine Or.inr ⟨rfl, ?_⟩
        rw [assign_self]
        cases e <;> simp [assigned] at h <;> subst h <;> simp
      · exact Or.inl (assign_other hx)
    · exact Or.inl rfl

theorem pair_processing {own : Status} (h : own = .processing ∨ own = .completed ∨ own = .failed ∨ own = .cancelled) : Pair .processing own := by
  rcases h with h | h | h | h <;> subst h <;> exact ⟨(by intro h; cases h), (by intro h; cases h)⟩

theorem pair_self {own : Status} (h : Pair .processing own) : Pair own own := by
  obtain ⟨h1, h2⟩ := h
  cases own with
  | aborted => exact absurd rfl h1
  | skipped => exact absurd rfl h2
  | processing => exact ⟨h1, h2⟩
  | _ => rfl

/-- The own status of an executing event changes. -/
theorem Inv.change {pid : Status → Nat} {s : Sys γ} (h : Inv pid s) {k : Nat} {r : Nat × Nat} (hk : s.ex.runs[k]? = some r) (own' : Nat → Status)
    (ho : ∀ x, own' x = s.own x ∨ x = r.2 ∧ Pair .processing (own' x)) : Inv pid { s with own := own' } := by
  refine ⟨h.j, fun st id hm => ?_⟩
  show Pair st (own' id)
  rcases ho id with e | ⟨e, hp⟩
  · rw [e]; exact h.pair st id hm
  · have hr := (h.j.running (k := k) (i := r.1) (id := r.2) hk).1
    rw [← e] at hr
    rw [h.j.part.unique hm hr]
    exact hp

theorem Inv.step {pid : Status → Nat} {s : Sys γ} (h : Inv pid s) (sub : γ → γ → Bool) (c : Processor.Cfg) (a : Act γ) (hf : Fresh s a) (hm : Mild s a) :
    Inv pid (step sub c s a) := by
  cases a with
  | base a =>
    simp only [ExecStatus.step]
    cases he : ends a with
    | true => exact h
    | false =>
      refine ⟨h.j.step sub c a hm, fun st id hid => ?_⟩
      show Pair st (s.own id)
      rcases listed_step h.j sub c a he st id hid with h1 | ⟨h1, h2⟩ | ⟨h1, ev, prio, h2, h3⟩
      · exact h.pair st id h1
      · have := h.pair .pending id h2
        simp only [Pair] at this
        rw [this]
        rcases h1 with h1 | h1 <;> subst h1
        · exact ⟨(by intro h; cases h), (by intro h; cases h)⟩
        · rfl
      · subst h2
        rw [h1, h3]
        exact hf
  | enter k =>
    simp only [ExecStatus.step]
    cases hk : s.ex.runs[k]? with
    | none => exact h
    | some r =>
      refine h.change hk _ (fun x => ?_)
      rcases entered_cases s.own r.2 x with e | ⟨e, e'⟩
      · exact Or.inl e
      · exact Or.inr ⟨e, pair_processing (Or.inl e')⟩
  | leave k e =>
    simp only [ExecStatus.step]
    cases hk : s.ex.runs[k]? with
    | none => exact h
    | some r =>
      refine h.change hk _ (fun x => ?_)
      rcases left_cases s.own r.2 x e with e | ⟨e, e'⟩
      · exact Or.inl e
      · exact Or.inr ⟨e, pair_processing (Or.inr e')⟩
  | file k =>
    simp only [ExecStatus.step]
    cases hk : s.ex.runs[k]? with
    | none => exact h
    | some r =>
      simp only
      split
      · exact h
      · refine ⟨h.j.step sub c (.finish k (s.own r.2)) trivial, fun st id hid => ?_⟩
        show Pair st (s.own id)
        have hr := (h.j.running (k := k) (i := r.1) (id := r.2) hk).1
        obtain ⟨f', h1, h2, h3, h4, h5⟩ := Part.update h.j.eg h.j.part (h.j.part.mem hr) (s.own r.2)
        simp only [Executor.step, hk, h1] at hid
        rw [h5, List.mem_append] at hid
        rcases hid with hid | hid
        · exact h.pair st id (List.mem_of_mem_erase hid)
        · split at hid
          · next e =>
            cases List.mem_singleton.1 hid
            rw [e]
            exact pair_self (h.pair _ _ hr)
          · cases hid
  | vanish k => exact ⟨h.j.step sub c (.vanish k) trivial, fun st id hid => h.pair st id hid⟩

theorem Inv.run {pid : Status → Nat} (sub : γ → γ → Bool) (c : Processor.Cfg) (as : List (Act γ)) {s : Sys γ} (h : Inv pid s) (hu : Usual sub c s as) :
    Inv pid (run sub c s as) := by
  induction as generalizing s with
  | nil => exact h
  | cons a as ih => exact ih (h.step sub c a hu.1 hu.2.1) hu.2.2

theorem inv_init {pid : Status → Nat} (inj : ∀ a b, pid a = pid b → a = b) (cls : List γ) (strict : Bool) (own : Nat → Status) :
    Inv pid (init pid cls strict own) := by
  obtain ⟨_, _, h3⟩ := Executor.init_good (γ := γ) inj cls strict
  have hj := Executor.j_init (γ := γ) inj cls strict
  unfold init
  unfold Executor.init at hj ⊢
  generalize Executor.initFlow pid cls strict = f at h3 hj
  refine ⟨hj, fun st id hid => ?_⟩
  have hid' : id ∈ listed f st := hid
  rw [h3] at hid'
  cases hid'

/-! ### The theorems -/

/-- C284, exactly: whatever is appended (while pending), started, denied, executed, cancelled, timed out or cleaned up in whatever order, an event which the executor lists under a status other
than PROCESSING has this status itself, unless the list is ABORTED; the events listed there are all still PENDING. -/
theorem C284_exact_partial {pid : Status → Nat} (inj : ∀ a b, pid a = pid b → a = b) (cls : List γ) (strict : Bool) (sub : γ → γ → Bool) (c : Processor.Cfg)
    (own : Nat → Status) (as : List (Act γ)) (hu : Usual sub c (init pid cls strict own) as) (st : Status) (id : Nat)
    (hid : id ∈ listed (run sub c (init pid cls strict own) as).ex.flow st) :
    (st ≠ .processing → ((run sub c (init pid cls strict own) as).own id = st ↔ st ≠ .aborted)) ∧
    (st = .aborted → (run sub c (init pid cls strict own) as).own id = .pending) ∧
    (st = .processing → (run sub c (init pid cls strict own) as).own id ≠ .aborted ∧ (run sub c (init pid cls strict own) as).own id ≠ .skipped) ∧
    st ≠ .skipped := by
  have hp := ((inv_init (γ := γ) inj cls strict own).run sub c as hu).pair st id hid
  generalize (run sub c (init pid cls strict own) as).own id = o at hp
  cases st with
  | pending => exact ⟨fun _ => ⟨fun _ => (by intro h; cases h), fun _ => hp⟩, (by intro h; cases h), (by intro h; cases h), (by intro h; cases h)⟩
  | aborted =>
    refine ⟨fun _ => ⟨fun h => ?_, fun h => absurd rfl h⟩, fun _ => hp, (by intro h; cases h), (by intro h; cases h)⟩
    rw [show o = .pending from hp] at h
    cases h
  | processing => exact ⟨fun h => absurd rfl h, (by intro h; cases h), fun _ => hp, (by intro h; cases h)⟩
  | skipped => exact hp.elim
  | completed => exact ⟨fun _ => ⟨fun _ => (by intro h; cases h), fun _ => hp⟩, (by intro h; cases h), (by intro h; cases h), (by intro h; cases h)⟩
  | failed => exact ⟨fun _ => ⟨fun _ => (by intro h; cases h), fun _ => hp⟩, (by intro h; cases h), (by intro h; cases h), (by intro h; cases h)⟩
  | cancelled => exact ⟨fun _ => ⟨fun _ => (by intro h; cases h), fun _ => hp⟩, (by intro h; cases h), (by intro h; cases h), (by intro h; cases h)⟩

/-- C284, filing: an executing event whose `invoke()` has begun is filed under its own status when its `finally` clause runs: it is then listed there and nowhere else, and does not execute any more.
Before `invoke()` has begun nothing is filed. -/
theorem C284_filed_partial {pid : Status → Nat} (inj : ∀ a b, pid a = pid b → a = b) (cls : List γ) (strict : Bool) (sub : γ → γ → Bool) (c : Processor.Cfg)
    (own : Nat → Status) (as : List (Act γ)) (hu : Usual sub c (init pid cls strict own) as) (k i id : Nat)
    (hk : (run sub c (init pid cls strict own) as).ex.runs[k]? = some (i, id)) :
    ((run sub c (init pid cls strict own) as).own id ≠ .pending →
      (∀ st, id ∈ listed (step sub c (run sub c (init pid cls strict own) as) (.file k)).ex.flow st ↔ st = (run sub c (init pid cls strict own) as).own id) ∧
      (step sub c (run sub c (init pid cls strict own) as) (.file k)).ex.runs = (run sub c (init pid cls strict own) as).ex.runs.eraseIdx k) ∧
    ((run sub c (init pid cls strict own) as).own id = .pending → step sub c (run sub c (init pid cls strict own) as) (.file k) = run sub c (init pid cls strict own) as) := by
  have hi := (inv_init (γ := γ) inj cls strict own).run sub c as hu
  generalize run sub c (init pid cls strict own) as = s at hi hk ⊢
  refine ⟨fun ho => ?_, fun ho => ?_⟩
  · have hs : step sub c s (.file k) = { s with ex := Executor.step sub c s.ex (.finish k (s.own id)) } := by
      simp only [step, hk, if_neg ho]
    have hj := hi.j.step sub c (.finish k (s.own id)) trivial
    have he : Executor.step sub c s.ex (.finish k (s.own id)) = { s.ex with flow := (Executor.updateProgression s.ex.flow id (s.own id)).1, runs := s.ex.runs.eraseIdx k } := by
      simp only [Executor.step, hk]
    have hin : id ∈ listed (Executor.step sub c s.ex (.finish k (s.own id))).flow (s.own id) := by
      rw [he]
      obtain ⟨f', h1, _, _, h4⟩ := Executor.update_spec hi.j.eg id (s.own id)
      rw [h1]
      show id ∈ listed f' _
      rw [h4]; simp
    rw [hs]
    refine ⟨fun st => ⟨fun hm => hj.part.unique hm hin, ?_⟩, by rw [he]⟩
    rintro rfl; exact hin
  · simp only [step, hk, if_pos ho]

/-- Conversely, a stored event with status `st` is listed under `st`; or under PROCESSING, where it waits for its execution to begin or to be filed, or was cut off; or, if it is pending,
perhaps under ABORTED. -/
theorem C284_found_partial {pid : Status → Nat} (inj : ∀ a b, pid a = pid b → a = b) (cls : List γ) (strict : Bool) (sub : γ → γ → Bool) (c : Processor.Cfg)
    (own : Nat → Status) (as : List (Act γ)) (hu : Usual sub c (init pid cls strict own) as) (st : Status) (id : Nat)
    (hs : id ∈ (run sub c (init pid cls strict own) as).ex.flow.items.order) (ho : (run sub c (init pid cls strict own) as).own id = st) :
    id ∈ listed (run sub c (init pid cls strict own) as).ex.flow st ∨ id ∈ listed (run sub c (init pid cls strict own) as).ex.flow .processing ∨
      (st = .pending ∧ id ∈ listed (run sub c (init pid cls strict own) as).ex.flow .aborted) := by
  have hi := (inv_init (γ := γ) inj cls strict own).run sub c as hu
  obtain ⟨st', h1, _, _⟩ := (Executor.consistent_of hi.j.eg hi.j.part).2.2.1 id hs
  obtain ⟨h2, h3, h4, h5⟩ := C284_exact_partial inj cls strict sub c own as hu st' id h1
  by_cases e1 : st' = .processing
  · rw [e1] at h1; exact Or.inr (Or.inl h1)
  · by_cases e2 : st' = .aborted
    · have := h3 e2
      rw [e2] at h1
      exact Or.inr (Or.inr ⟨ho ▸ this, h1⟩)
    · have := (h2 e1).2 e2
      rw [ho] at this
      rw [this]
      exact Or.inl h1

/-! ### What a status tells -/

/-- What the statuses stand for. -/
inductive Means : Ending → Status → Prop
  | returned : Means .returned .completed
  | raised : Means .raised .failed
  | timedOut : Means .timedOut .cancelled
  | cancelled : Means .cancelled .cancelled

/-- In the schedule `as`, the `invoke()` of a started event `id` begins. -/
def Entered (sub : γ → γ → Bool) (c : Processor.Cfg) (s : Sys γ) (as : List (Act γ)) (id : Nat) : Prop :=
  ∃ pre post k i, as = pre ++ .enter k :: post ∧ (run sub c s pre).ex.runs[k]? = some (i, id)

/-- In the schedule `as`, the body of `id`, which has begun and not ended before, ends in a way `st` stands for. -/
def Ended (sub : γ → γ → Bool) (c : Processor.Cfg) (s : Sys γ) (as : List (Act γ)) (id : Nat) (st : Status) : Prop :=
  ∃ pre post k i e, as = pre ++ .leave k e :: post ∧ (run sub c s pre).ex.runs[k]? = some (i, id) ∧ (run sub c s pre).own id = .processing ∧ Means e st

theorem snoc_split {α : Type} {as pre post : List α} {a b : α} (h : as ++ [a] = pre ++ b :: post) :
    (∃ post', as = pre ++ b :: post') ∨ (pre = as ∧ b = a ∧ post = []) := by
  rcases List.eq_nil_or_concat post with rfl | ⟨p', x, rfl⟩
  · have := List.append_inj' h rfl
    exact Or.inr ⟨this.1.symm, (List.cons.inj this.2).1.symm, rfl⟩
  · left
    rw [List.concat_eq_append, ← List.cons_append, ← List.append_assoc] at h
    exact ⟨p', (List.append_inj' h rfl).1⟩

theorem entered_snoc (sub : γ → γ → Bool) (c : Processor.Cfg) (s : Sys γ) (as : List (Act γ)) (a : Act γ) (id : Nat) :
    Entered sub c s (as ++ [a]) id ↔ Entered sub c s as id ∨ ∃ k i, a = .enter k ∧ (run sub c s as).ex.runs[k]? = some (i, id) := by
  constructor
  · rintro ⟨pre, post, k, i, h, hr⟩
    rcases snoc_split h with ⟨p', h'⟩ | ⟨rfl, h', _⟩
    · exact Or.inl ⟨pre, p', k, i, h', hr⟩
    · exact Or.inr ⟨k, i, h'.symm, hr⟩
  · rintro (⟨pre, post, k, i, h, hr⟩ | ⟨k, i, h, hr⟩)
    · exact ⟨pre, post ++ [a], k, i, by rw [h]; simp, hr⟩
    · exact ⟨as, [], k, i, by rw [h], hr⟩

theorem ended_snoc (sub : γ → γ → Bool) (c : Processor.Cfg) (s : Sys γ) (as : List (Act γ)) (a : Act γ) (id : Nat) (st : Status) :
    Ended sub c s (as ++ [a]) id st ↔ Ended sub c s as id st ∨
      ∃ k i e, a = .leave k e ∧ (run sub c s as).ex.runs[k]? = some (i, id) ∧ (run sub c s as).own id = .processing ∧ Means e st := by
  constructor
  · rintro ⟨pre, post, k, i, e, h, hr, ho, hm⟩
    rcases snoc_split h with ⟨p', h'⟩ | ⟨rfl, h', _⟩
    · exact Or.inl ⟨pre, p', k, i, e, h', hr, ho, hm⟩
    · exact Or.inr ⟨k, i, e, h'.symm, hr, ho, hm⟩
  · rintro (⟨pre, post, k, i, e, h, hr, ho, hm⟩ | ⟨k, i, e, h, hr, ho, hm⟩)
    · exact ⟨pre, post ++ [a], k, i, e, by rw [h]; simp, hr, ho, hm⟩
    · exact ⟨as, [], k, i, e, by rw [h], hr, ho, hm⟩

/-- What the own status of an event says about its history. -/
def Tells (sub : γ → γ → Bool) (c : Processor.Cfg) (s : Sys γ) (as : List (Act γ)) (id : Nat) : Prop :=
  ((run sub c s as).own id = .pending ↔ ¬ Entered sub c s as id) ∧
  ((run sub c s as).own id = .processing ↔ Entered sub c s as id ∧ ∀ st, ¬ Ended sub c s as id st) ∧
  (∀ st, Ended sub c s as id st ↔ (run sub c s as).own id = st ∧ (st = .completed ∨ st = .failed ∨ st = .cancelled)) ∧
  (run sub c s as).own id ≠ .aborted ∧ (run sub c s as).own id ≠ .skipped

theorem means_status {e : Ending} {st : Status} (h : Means e st) : st = .completed ∨ st = .failed ∨ st = .cancelled := by
  cases h <;> simp

theorem means_iff {e : Ending} {st : Status} : Means e st ↔ assigned e = some st := by
  constructor
  · intro h; cases h <;> rfl
  · intro h; cases e <;> simp only [assigned, Option.some.injEq, reduceCtorEq] at h <;> subst h <;> constructor

theorem own_other {sub : γ → γ → Bool} {c : Processor.Cfg} {s : Sys γ} {a : Act γ} {id : Nat} (h1 : ∀ k i, a = .enter k → s.ex.runs[k]? ≠ some (i, id))
    (h2 : ∀ k i e, a = .leave k e → s.ex.runs[k]? ≠ some (i, id)) : (step sub c s a).own id = s.own id := by
  cases a with
  | base a => simp only [step]; split <;> rfl
  | enter k =>
    simp only [step]
    cases hk : s.ex.runs[k]? with
    | none => rfl
    | some r =>
      rcases entered_cases s.own r.2 id with e | ⟨e, _⟩
      · exact e
      · exact absurd (by rw [hk, e]) (h1 k r.1 rfl)
  | leave k e =>
    simp only [step]
    cases hk : s.ex.runs[k]? with
    | none => rfl
    | some r =>
      rcases left_cases s.own r.2 id e with e' | ⟨e', _⟩
      · exact e'
      · exact absurd (by rw [hk, e']) (h2 k r.1 e rfl)
  | file k =>
    simp only [step]
    split
    · rfl
    · split <;> rfl
  | vanish k => rfl

theorem tells_run (sub : γ → γ → Bool) (c : Processor.Cfg) (s : Sys γ) (id : Nat) (h0 : s.own id = .pending) (as : List (Act γ)) : Tells sub c s as id := by
  rw [← List.reverse_reverse as]
  induction as.reverse with
  | nil =>
    have hE : ¬ Entered sub c s [] id := by rintro ⟨pre, post, k, i, h, _⟩; simp at h
    have hD : ∀ st, ¬ Ended sub c s [] id st := by rintro st ⟨pre, post, k, i, e, h, _⟩; simp at h
    simp only [Tells, List.reverse_nil, run, List.foldl_nil, h0, hE, hD]
    simp
  | cons a l ih =>
    rw [List.reverse_cons]
    generalize l.reverse = as at ih
    obtain ⟨i1, i2, i3, i4, i5⟩ := ih
    have hrun : run sub c s (as ++ [a]) = step sub c (run sub c s as) a := by simp [run, List.foldl_append]
    unfold Tells
    simp only [entered_snoc, ended_snoc, hrun]
    generalize run sub c s as = t at i1 i2 i3 i4 i5
    by_cases he : ∃ k i, a = .enter k ∧ t.ex.runs[k]? = some (i, id)
    · obtain ⟨k, i, rfl, hr⟩ := he
      have hno : ∀ st, ¬ ∃ k' i' e, (Act.enter k : Act γ) = .leave k' e ∧ t.ex.runs[k']? = some (i', id) ∧ t.own id = .processing ∧ Means e st := by
        rintro st ⟨_, _, _, h, _⟩; cases h
      have hyes : ∃ k' i', (Act.enter k : Act γ) = .enter k' ∧ t.ex.runs[k']? = some (i', id) := ⟨k, i, rfl, hr⟩
      simp only [hno, hyes, or_false, or_true, not_true, iff_false, true_and]
      have hown : (step sub c t (.enter k)).own id = if t.own id = .pending then .processing else t.own id := by
        simp only [step, hr, entered]
        split
        · exact assign_self
        · rfl
      rw [hown]
      by_cases hp : t.own id = .pending
      · rw [if_pos hp]
        have hno' : ∀ st, ¬ Ended sub c s as id st := by
          intro st hst
          have := (i3 st).1 hst
          rw [hp] at this
          rcases this with ⟨rfl, h | h | h⟩ <;> cases h
        refine ⟨by simp, by simpa using hno', fun st => ?_, by simp, by simp⟩
        simp only [hno', false_iff]
        rintro ⟨rfl, h | h | h⟩ <;> cases h
      · rw [if_neg hp]
        have hE : Entered sub c s as id := Classical.byContradiction (fun h => hp (i1.2 h))
        refine ⟨hp, ?_, i3, i4, i5⟩
        rw [i2]
        simp [hE]
    · by_cases hl : ∃ k i e, a = .leave k e ∧ t.ex.runs[k]? = some (i, id)
      · obtain ⟨k, i, e, rfl, hr⟩ := hl
        have hn1 : ¬ ∃ k' i', (Act.leave k e : Act γ) = .enter k' ∧ t.ex.runs[k']? = some (i', id) := by
          rintro ⟨_, _, h, _⟩; cases h
        have hd : ∀ st, (∃ k' i' e', (Act.leave k e : Act γ) = .leave k' e' ∧ t.ex.runs[k']? = some (i', id) ∧ t.own id = .processing ∧ Means e' st) ↔
            t.own id = .processing ∧ Means e st := by
          intro st
          constructor
          · rintro ⟨_, _, _, h, _, h1, h2⟩; cases h; exact ⟨h1, h2⟩
          · rintro ⟨h1, h2⟩; exact ⟨k, i, e, rfl, hr, h1, h2⟩
        simp only [hn1, or_false, hd]
        by_cases hp : t.own id = .processing
        · have hE := (i2.1 hp).1
          have hno := (i2.1 hp).2
          simp only [hno, hp, false_or, true_and, hE, not_true, iff_false]
          cases ha : assigned e with
          | none =>
            have hown : (step sub c t (.leave k e)).own id = .processing := by simp only [step, hr, left, ha, hp]
            have hM : ∀ st, ¬ Means e st := fun st h => by rw [means_iff, ha] at h; cases h
            rw [hown]
            refine ⟨by simp, by simpa using hM, fun st => ?_, by simp, by simp⟩
            simp only [hM, false_iff]
            rintro ⟨rfl, h | h | h⟩ <;> cases h
          | some st0 =>
            have hown : (step sub c t (.leave k e)).own id = st0 := by simp only [step, hr, left, ha, hp, if_true, assign_self]
            have hM0 : Means e st0 := means_iff.2 ha
            have hk := means_status hM0
            rw [hown]
            refine ⟨by rcases hk with h | h | h <;> subst h <;> simp, ?_, fun st => ?_, by rcases hk with h | h | h <;> subst h <;> simp,
              by rcases hk with h | h | h <;> subst h <;> simp⟩
            · constructor
              · intro h; rcases hk with h' | h' | h' <;> rw [h'] at h <;> cases h
              · intro h; exact absurd hM0 (h st0)
            · rw [means_iff, ha, Option.some.injEq]
              constructor
              · intro h; subst h; exact ⟨rfl, hk⟩
              · exact fun h => h.1
        · have hown : (step sub c t (.leave k e)).own id = t.own id := by
            simp only [step, hr, left]
            cases assigned e with
            | none => rfl
            | some st => simp only [if_neg hp]
          rw [hown]
          simp only [hp, false_and, or_false]
          exact ⟨i1, by rw [← i2]; simp [hp], i3, i4, i5⟩
      · have hown : (step sub c t a).own id = t.own id :=
          own_other (fun k i h1 h2 => he ⟨k, i, h1, h2⟩) (fun k i e h1 h2 => hl ⟨k, i, e, h1, h2⟩)
        have hn2 : ∀ st, ¬ ∃ k' i' e, a = .leave k' e ∧ t.ex.runs[k']? = some (i', id) ∧ t.own id = .processing ∧ Means e st := by
          rintro st ⟨k, i, e, h1, h2, _⟩; exact hl ⟨k, i, e, h1, h2⟩
        rw [hown]
        simp only [he, hn2, or_false]
        exact ⟨i1, i2, i3, i4, i5⟩

/-- C284: what the executor's answer tells.  The own status of an event that was pending is PENDING exactly as long as no `invoke()` of it has begun, PROCESSING exactly while its body has
begun and not ended, and afterwards COMPLETED, FAILED or CANCELLED exactly according to how the body ended the first time; so every event listed under one of these three ended that way. -/
theorem C284_tells_partial {pid : Status → Nat} (inj : ∀ a b, pid a = pid b → a = b) (cls : List γ) (strict : Bool) (sub : γ → γ → Bool) (c : Processor.Cfg)
    (own : Nat → Status) (as : List (Act γ)) (id : Nat) (h0 : own id = .pending) :
    Tells sub c (init pid cls strict own) as id ∧
    (Usual sub c (init pid cls strict own) as → ∀ st, st = .completed ∨ st = .failed ∨ st = .cancelled →
      id ∈ listed (run sub c (init pid cls strict own) as).ex.flow st → Ended sub c (init pid cls strict own) as id st) := by
  have ht := tells_run sub c (init pid cls strict own) id h0 as
  refine ⟨ht, fun hu st hst hid => (ht.2.2.1 st).2 ⟨?_, hst⟩⟩
  obtain ⟨h1, -⟩ := C284_exact_partial inj cls strict sub c own as hu st id hid
  rcases hst with rfl | rfl | rfl <;> exact (h1 (by simp)).2 (by simp)

def demoRun : List (Act Unit) :=
  [.base (.append (Executor.ev0 1 10) none), .base .start, .base .fill, .base (.append (Executor.ev0 2 5) none), .base (.enqPut 0), .base (.enqPut 0), .base .forward,
    .base (.go 0 .grant), .base (.go 0 .grant), .base (.go 0 .grant), .base (.go 0 .grant), .enter 0, .leave 0 .raised, .file 0,
    .base (.go 0 .grant), .base (.go 0 .grant), .base (.go 0 .grant), .base (.go 0 .grant)]

/-- Non-vacuity: one event has failed, the other waits for its execution to begin. -/
example : Usual (fun _ _ => true) Executor.cfg0 (init Executor.pid0 [()] false (fun _ => .pending)) demoRun := by
  simp only [demoRun, Usual, Fresh, Mild, GentleAt, init, step, ends, and_true, true_and, Bool.false_eq_true, if_false]

example : listed (run (fun _ _ => true) Executor.cfg0 (init Executor.pid0 [()] false (fun _ => .pending)) demoRun).ex.flow .failed = [2] ∧
    (run (fun _ _ => true) Executor.cfg0 (init Executor.pid0 [()] false (fun _ => .pending)) demoRun).own 2 = .failed ∧
    listed (run (fun _ _ => true) Executor.cfg0 (init Executor.pid0 [()] false (fun _ => .pending)) demoRun).ex.flow .processing = [1] ∧
    (run (fun _ _ => true) Executor.cfg0 (init Executor.pid0 [()] false (fun _ => .pending)) demoRun).own 1 = .pending := by decide

/-- Non-vacuity of `C284_filed_partial`: the waiting event executes but has not begun, so nothing is filed; once its body has ended well it is filed under COMPLETED. -/
example : (run (fun _ _ => true) Executor.cfg0 (init Executor.pid0 [()] false (fun _ => .pending)) demoRun).ex.runs.map (·.2) = [1] ∧
    listed (run (fun _ _ => true) Executor.cfg0 (init Executor.pid0 [()] false (fun _ => .pending)) (demoRun ++ [.enter 0, .leave 0 .returned])).ex.flow .processing = [1] ∧
    listed (run (fun _ _ => true) Executor.cfg0 (init Executor.pid0 [()] false (fun _ => .pending)) (demoRun ++ [.enter 0, .leave 0 .returned, .file 0])).ex.flow .completed = [1] := by decide

/-- Three denials. -/
def denied : List (Act Unit) :=
  [.base (.append (Executor.ev0 1 10) none), .base .start, .base .fill, .base (.enqPut 0),
    .base .forward, .base (.go 0 .deny), .base (.go 0 .deny), .base (.go 0 .deny), .base (.go 0 .deny), .base (.go 0 .deny), .base (.go 0 .deny),
    .base .forward, .base (.go 1 .deny), .base (.go 1 .deny), .base (.go 1 .deny), .base (.go 1 .deny), .base (.go 1 .deny), .base (.go 1 .deny),
    .base .forward, .base (.go 2 .deny), .base (.go 2 .deny), .base (.go 2 .deny), .base (.go 2 .deny), .base (.go 2 .deny), .base (.go 2 .deny)]

/-- C284 fails for events that were denied three times: `get_events_by_status(ABORTED)` returns an event whose status is PENDING. -/
theorem C284_aborted_violation :
    listed (run (fun _ _ => true) Executor.cfg0 (init Executor.pid0 [()] false (fun _ => .pending)) denied).ex.flow .aborted = [1] ∧
    (run (fun _ _ => true) Executor.cfg0 (init Executor.pid0 [()] false (fun _ => .pending)) denied).own 1 = .pending := by decide

/-- C284 fails for PROCESSING: an event that waits for a slot is still PENDING, one that was cancelled before it was filed is CANCELLED for ever. -/
theorem C284_processing_violation :
    listed (run (fun _ _ => true) Executor.cfg0 (init Executor.pid0 [()] false (fun _ => .pending)) (demoRun.take 11)).ex.flow .processing = [2] ∧
    (run (fun _ _ => true) Executor.cfg0 (init Executor.pid0 [()] false (fun _ => .pending)) (demoRun.take 11)).own 2 = .pending ∧
    listed (run (fun _ _ => true) Executor.cfg0 (init Executor.pid0 [()] false (fun _ => .pending))
      (demoRun.take 11 ++ [.enter 0, .leave 0 .cancelled, .vanish 0])).ex.flow .processing = [2] ∧
    (run (fun _ _ => true) Executor.cfg0 (init Executor.pid0 [()] false (fun _ => .pending)) (demoRun.take 11 ++ [.enter 0, .leave 0 .cancelled, .vanish 0])).own 2 = .cancelled := by
  decide

/-- C284 fails for events that are appended after they have run: a completed event is listed under PENDING. -/
theorem C284_appended_violation :
    listed (run (fun _ _ => true) Executor.cfg0 (init Executor.pid0 [()] false (fun _ => .completed)) [.base (.append (Executor.ev0 1 10) none)]).ex.flow .pending = [1] ∧
    (run (fun _ _ => true) Executor.cfg0 (init Executor.pid0 [()] false (fun _ => .completed)) [.base (.append (Executor.ev0 1 10) none)]).own 1 = .completed := by decide

end Verif.ExecStatus
