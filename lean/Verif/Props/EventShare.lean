import Verif.Model.EventShare

/-! # C310: an event in several executors runs once, and every executor that ran it lists how it ended -/

set_option linter.unusedSimpArgs false
set_option linter.unusedVariables false

namespace Verif.EventShare

theorem upd_same {α : Type} (g : Nat → α) (k : Nat) (v : α) : upd g k v k = v := by simp [upd]
theorem upd_ne {α : Type} (g : Nat → α) {k j : Nat} (v : α) (h : j ≠ k) : upd g k v j = g j := by simp [upd, h]

/-! ## Specification -/

/-- The event has ended. -/
def Ended (st : Status) : Prop := st = .completed ∨ st = .failed ∨ st = .cancelled

/-- An attempt that has been filed and is not over. -/
def Busy (p : PC) : Prop := p = .filed ∨ p = .waiting ∨ p = .body ∨ p = .after

/-- Nothing is going on: every attempt is over. -/
def Quiet (s : State) : Prop := ∀ k, s.pc k = .idle ∨ s.pc k = .over

/-- Executor `j` made an attempt, which is over. -/
def Tried (s : State) (j : Nat) : Prop := ∃ k, s.ex k = j ∧ s.pc k = .over

/-- In the history no attempt of executor `j` is cancelled, and the executor does not abort the event. -/
def Smooth (j : Nat) (s : State) : List Act → Prop
  | [] => True
  | .cancel k u :: h => s.ex k ≠ j ∧ Smooth j (step s (.cancel k u)) h
  | .abort i :: h => i ≠ j ∧ Smooth j (step s (.abort i)) h
  | a :: h => Smooth j (step s a) h

/-! ## The event -/

/-- What holds of the event at any time. -/
structure Inv (s : State) : Prop where
  lock : ∀ k, s.pc k = .body → s.holder = some k ∧ s.status = .processing
  body : s.status = .processing → ∃ k, s.pc k = .body
  fresh : s.status = .pending → s.runs = 0
  once : s.runs ≤ 1
  future : ∀ k, s.next ≤ k → s.pc k = .idle
  kind : s.status ≠ .aborted

theorem Inv.not_processing {s : State} (h : Inv s) {k : Nat} (hk : s.holder = none ∨ (s.holder = some k ∧ s.pc k ≠ .body)) : s.status ≠ .processing := by
  intro hp
  obtain ⟨k', hb⟩ := h.body hp
  have hl := (h.lock k' hb).1
  rcases hk with hk | ⟨hk, hn⟩
  · rw [hk] at hl; cases hl
  · rw [hk] at hl; cases hl; exact hn hb

/-- An attempt moves between places other than the body. -/
theorem Inv.move {s t : State} (h : Inv s) {k : Nat} {p : PC} (hk : s.pc k ≠ .body) (hkn : k < s.next) (hp : p ≠ .body) (e1 : t.pc = upd s.pc k p) (e2 : t.status = s.status) (e3 : t.runs = s.runs)
    (e4 : t.next = s.next) (e5 : (∀ k', s.pc k' = .body → t.holder = some k')) : Inv t := by
  refine ⟨fun k' hb => ?_, fun hs => ?_, fun hs => ?_, ?_, fun k' hk' => ?_, ?_⟩
  · rw [e1] at hb
    by_cases e : k' = k
    · subst e; rw [upd_same] at hb; exact absurd hb hp
    · rw [upd_ne _ _ e] at hb; exact ⟨e5 k' hb, by rw [e2]; exact (h.lock k' hb).2⟩
  · rw [e2] at hs
    obtain ⟨k', hb⟩ := h.body hs
    refine ⟨k', ?_⟩
    rw [e1, upd_ne _ _ (fun e => hk (by rw [← e]; exact hb))]; exact hb
  · rw [e2] at hs; rw [e3]; exact h.fresh hs
  · rw [e3]; exact h.once
  · rw [e4] at hk'; rw [e1, upd_ne _ _ (by omega)]; exact h.future k' hk'
  · rw [e2]; exact h.kind

theorem Inv.lt {s : State} (h : Inv s) {k : Nat} (hk : s.pc k ≠ .idle) : k < s.next :=
  Classical.byContradiction fun hn => hk (h.future k (by omega))

theorem Inv.same {s t : State} (h : Inv s) (e1 : t.pc = s.pc) (e2 : t.status = s.status) (e3 : t.runs = s.runs) (e4 : t.next = s.next) (e5 : t.holder = s.holder) : Inv t :=
  ⟨by rw [e1, e2, e5]; exact h.lock, by rw [e1, e2]; exact h.body, by rw [e2, e3]; exact h.fresh, by rw [e3]; exact h.once, by rw [e1, e4]; exact h.future, by rw [e2]; exact h.kind⟩

theorem begin_inv {s : State} (h : Inv s) {k : Nat} (hp : s.pc k ≠ .body) (hi : s.pc k ≠ .idle) (hh : s.holder = none ∨ s.holder = some k) : Inv (begin_ s k) := by
  have hn : s.status ≠ .processing := h.not_processing (k := k) (hh.imp id fun e => ⟨e, hp⟩)
  have hb : ∀ k', s.pc k' ≠ .body := fun k' e => hn (h.lock k' e).2
  unfold begin_
  split
  · rename_i hs
    refine ⟨fun k' hk' => ?_, fun _ => ⟨k, upd_same ..⟩, fun e => ?_, ?_, fun k' hk' => ?_, fun e => ?_⟩
    · by_cases e : k' = k
      · subst e; exact ⟨rfl, rfl⟩
      · simp only [State.goto, upd_ne _ _ e] at hk'; exact absurd hk' (hb k')
    · cases e
    · have := h.fresh hs
      simp only [State.goto]; omega
    · have : k < s.next := h.lt hi
      simp only [State.goto] at hk' ⊢
      rw [upd_ne _ _ (by omega)]; exact h.future k' hk'
    · cases e
  · exact h.move hp (h.lt hi) (by decide) rfl rfl rfl rfl (fun k' e => absurd e (hb k'))

theorem end_inv {s : State} (h : Inv s) {k : Nat} {o : Status} {p : PC} (hp : s.pc k = .body) (ho : Ended o) (hpp : p ≠ .body) : Inv ({ s with status := o }.unlock.goto k p) := by
  have only : ∀ k', s.pc k' = .body → k' = k := by
    intro k' e
    have a := (h.lock k' e).1
    rw [(h.lock k hp).1] at a; cases a; rfl
  have hn : k < s.next := h.lt (by rw [hp]; decide)
  have ho' : o ≠ .processing ∧ o ≠ .pending ∧ o ≠ .aborted := by
    rcases ho with rfl | rfl | rfl <;> decide
  refine ⟨fun k' hb => ?_, fun e => absurd e ho'.1, fun e => absurd e ho'.2.1, h.once, fun k' hk' => ?_, ho'.2.2⟩
  · simp only [State.goto, State.unlock] at hb
    by_cases e : k' = k
    · subst e; rw [upd_same] at hb; exact absurd hb hpp
    · rw [upd_ne _ _ e] at hb; exact absurd (only k' hb) e
  · simp only [State.goto, State.unlock] at hk' ⊢
    rw [upd_ne _ _ (by omega)]; exact h.future k' hk'

theorem afterCancel_ne (u : Bool) : afterCancel u ≠ .body := by cases u <;> decide

theorem step_inv {s : State} (h : Inv s) (a : Act) : Inv (step s a) := by
  cases a with
  | append j =>
    simp only [step, append]
    split
    · exact h.same rfl rfl rfl rfl rfl
    · exact h
  | take j =>
    simp only [step, take]
    split
    · exact h
    · refine ⟨fun k hb => ?_, fun hs => ?_, h.fresh, h.once, fun k hk => ?_, h.kind⟩ <;> dsimp only at *
      · by_cases e : k = s.next
        · subst e; rw [upd_same] at hb; cases hb
        · rw [upd_ne _ _ e] at hb; exact h.lock k hb
      · obtain ⟨k, hb⟩ := h.body hs
        refine ⟨k, ?_⟩
        rw [upd_ne _ _ (fun e => by rw [e, h.future _ (Nat.le_refl _)] at hb; cases hb)]; exact hb
      · rw [upd_ne _ _ (by omega)]; exact h.future k (by omega)
  | file k =>
    simp only [step, file]
    split
    · rename_i hk
      exact h.move (by rw [hk]; decide) (h.lt (by rw [hk]; decide)) (p := .filed) (by decide) rfl rfl rfl rfl (fun k' e => (h.lock k' e).1)
    · exact h
  | enter k =>
    simp only [step, enter]
    by_cases hk : s.pc k = .filed
    · rw [if_pos hk]
      by_cases hh : s.holder = none
      · rw [if_pos hh]
        exact begin_inv h (by rw [hk]; decide) (by rw [hk]; decide) (Or.inl hh)
      · rw [if_neg hh]
        exact h.move (by rw [hk]; decide) (h.lt (by rw [hk]; decide)) (p := .waiting) (by decide) rfl rfl rfl rfl (fun k' e => (h.lock k' e).1)
    · rw [if_neg hk]; exact h
  | resume k =>
    simp only [step, resume]
    split
    · rename_i hk
      exact begin_inv h (by rw [hk.1]; decide) (by rw [hk.1]; decide) (Or.inr hk.2)
    · exact h
  | finish k o =>
    simp only [step, finish]
    split
    · rename_i hk
      exact end_inv h hk.1 hk.2 (by decide)
    · exact h
  | update k =>
    simp only [step, update]
    split
    · rename_i hk
      exact h.move (by rw [hk]; decide) (h.lt (by rw [hk]; decide)) (p := .over) (by decide) rfl rfl rfl rfl (fun k' e => (h.lock k' e).1)
    · exact h
  | abort j =>
    simp only [step, abort]
    split
    · exact h
    · exact h.same rfl rfl rfl rfl rfl
  | cancel k u =>
    simp only [step, cancel]
    cases hk : s.pc k with
    | idle => exact h
    | over => exact h
    | permitted => exact h.move (by rw [hk]; decide) (h.lt (by rw [hk]; decide)) (p := .over) (by decide) rfl rfl rfl rfl (fun k' e => (h.lock k' e).1)
    | filed => exact h.move (by rw [hk]; decide) (h.lt (by rw [hk]; decide)) (p := .over) (by decide) rfl rfl rfl rfl (fun k' e => (h.lock k' e).1)
    | after => exact h.move (by rw [hk]; decide) (h.lt (by rw [hk]; decide)) (p := .over) (by decide) rfl rfl rfl rfl (fun k' e => (h.lock k' e).1)
    | body => exact end_inv h hk (Or.inr (Or.inr rfl)) (afterCancel_ne u)
    | waiting =>
      by_cases hh : s.holder = some k
      · simp only [hh, if_true]
        have hn := h.not_processing (k := k) (Or.inr ⟨hh, by rw [hk]; decide⟩)
        exact h.move (by rw [hk]; decide) (h.lt (by rw [hk]; decide)) (afterCancel_ne u) rfl rfl rfl rfl (fun k' e => absurd (h.lock k' e).2 hn)
      · simp only [hh, if_false]
        exact h.move (by rw [hk]; decide) (h.lt (by rw [hk]; decide)) (afterCancel_ne u) rfl rfl rfl rfl (fun k' e => (h.lock k' e).1)

theorem init_inv : Inv {} := ⟨fun _ h => (nomatch h), fun h => (nomatch h), fun _ => rfl, Nat.zero_le _, fun _ _ => rfl, fun h => (nomatch h)⟩

theorem run_inv (h : List Act) : ∀ {s : State}, Inv s → Inv (run s h) := by
  induction h with
  | nil => intro s hs; exact hs
  | cons a h ih => intro s hs; exact ih (step_inv hs a)

/-- **C310.**  Whatever the executors do with the event, in any interleaving, with cancellations and denials: its body is begun at most once. -/
theorem C310_once (h : List Act) : (run {} h).runs ≤ 1 := (run_inv h init_inv).once

/-! ## The lock of the event -/

/-- The tasks that wait for the event are those in the queue of its lock and the one that was just given it; the lock is held by nobody else than a task in the body or that one. -/
structure Queue (s : State) : Prop where
  wait : ∀ k ∈ s.waiters, s.pc k = .waiting ∧ s.holder ≠ some k
  nodup : s.waiters.Nodup
  holder : ∀ k, s.holder = some k → s.pc k = .body ∨ s.pc k = .waiting
  all : ∀ k, s.pc k = .waiting → k ∈ s.waiters ∨ s.holder = some k
  idle : s.holder = none → s.waiters = []

theorem Queue.move {s t : State} (q : Queue s) {k : Nat} {p : PC} (h1 : s.pc k ≠ .body ∧ s.pc k ≠ .waiting) (h2 : p ≠ .waiting) (e1 : t.pc = upd s.pc k p) (e2 : t.holder = s.holder)
    (e3 : t.waiters = s.waiters) : Queue t := by
  have keep : ∀ j, s.pc j = .body ∨ s.pc j = .waiting → upd s.pc k p j = s.pc j := by
    intro j hj
    refine upd_ne _ _ fun e => ?_
    subst e
    exact hj.elim h1.1 h1.2
  refine ⟨?_, by rw [e3]; exact q.nodup, ?_, ?_, by rw [e2, e3]; exact q.idle⟩
  · intro j hj
    rw [e3] at hj
    have := q.wait j hj
    rw [e1, e2, keep j (.inr this.1)]; exact this
  · intro j hj
    rw [e2] at hj
    rw [e1, keep j (q.holder j hj)]; exact q.holder j hj
  · intro j hj
    rw [e1] at hj
    rw [e2, e3]
    by_cases e : j = k
    · subst e; rw [upd_same] at hj; exact absurd hj h2
    · rw [upd_ne _ _ e] at hj; exact q.all j hj

/-- The lock is given up by the task that holds it. -/
theorem Queue.pass {s t : State} (q : Queue s) {k : Nat} {p : PC} (hh : s.holder = some k ∨ (s.holder = none ∧ s.pc k ≠ .waiting)) (hp : p ≠ .waiting ∧ p ≠ .body) (e1 : t.pc = upd s.pc k p)
    (e2 : t.holder = s.waiters.head?) (e3 : t.waiters = s.waiters.tail) : Queue t := by
  have hk : k ∉ s.waiters := by
    intro m
    rcases hh with e | e
    · exact (q.wait k m).2 e
    · exact e.2 (q.wait k m).1
  have keep : ∀ j ∈ s.waiters, upd s.pc k p j = s.pc j := fun j hj => upd_ne _ _ fun e => hk (e ▸ hj)
  cases hw : s.waiters with
  | nil =>
    refine ⟨by rw [e3, hw]; simp, by rw [e3, hw]; simp, by rw [e2, hw]; simp, ?_, by rw [e3, hw]; simp⟩
    intro j hj
    rw [e1] at hj
    by_cases e : j = k
    · subst e; rw [upd_same] at hj; exact absurd hj hp.1
    · rw [upd_ne _ _ e] at hj
      rcases q.all j hj with m | m
      · rw [hw] at m; cases m
      · rcases hh with h | h
        · rw [h] at m; cases m; exact absurd rfl e
        · rw [h.1] at m; cases m
  | cons m ms =>
    have hn := q.nodup
    rw [hw, List.nodup_cons] at hn
    refine ⟨?_, by rw [e3, hw]; exact hn.2, ?_, ?_, by rw [e2, hw]; intro h; cases h⟩
    · intro j hj
      rw [e3, hw] at hj
      have hj' : j ∈ s.waiters := by rw [hw]; exact List.mem_cons_of_mem _ hj
      rw [e1, keep j hj', e2, hw]
      refine ⟨(q.wait j hj').1, fun e => ?_⟩
      cases e
      exact hn.1 hj
    · intro j hj
      rw [e2, hw] at hj
      cases hj
      have hm : m ∈ s.waiters := by rw [hw]; exact List.mem_cons_self
      rw [e1, keep m hm]
      exact .inr (q.wait m hm).1
    · intro j hj
      rw [e1] at hj
      rw [e2, e3, hw]
      by_cases e : j = k
      · subst e; rw [upd_same] at hj; exact absurd hj hp.1
      · rw [upd_ne _ _ e] at hj
        rcases q.all j hj with m' | m'
        · rw [hw] at m'
          rcases List.mem_cons.mp m' with rfl | m'
          · exact .inr rfl
          · exact .inl m'
        · rcases hh with h | h
          · rw [h] at m'; cases m'; exact absurd rfl e
          · rw [h.1] at m'; cases m'

theorem begin_queue {s : State} (q : Queue s) {k : Nat} (hp : s.pc k ≠ .body) (hh : (s.holder = none ∧ s.pc k ≠ .waiting) ∨ s.holder = some k) : Queue (begin_ s k) := by
  unfold begin_
  split
  · have hk : ∀ j ∈ s.waiters, j ≠ k := by
      intro j hj e
      subst e
      rcases hh with h | h
      · exact h.2 (q.wait _ hj).1
      · exact (q.wait _ hj).2 h
    refine ⟨?_, q.nodup, ?_, ?_, fun e => (nomatch e)⟩
    · intro j hj
      have hne := hk j hj
      refine ⟨?_, ?_⟩
      · show upd s.pc k .body j = .waiting
        rw [upd_ne _ _ hne]; exact (q.wait j hj).1
      · show some k ≠ some j
        intro e; cases e; exact hne rfl
    · intro j hj
      have e : some k = some j := hj
      cases e
      exact .inl (upd_same ..)
    · intro j hj
      have hj' : upd s.pc k .body j = .waiting := hj
      by_cases e : j = k
      · subst e; rw [upd_same] at hj'; cases hj'
      · rw [upd_ne _ _ e] at hj'
        rcases q.all j hj' with m | m
        · exact .inl m
        · rcases hh with h | h
          · rw [h.1] at m; cases m
          · rw [h] at m; cases m; exact absurd rfl e
  · exact q.pass (k := k) (p := .after) (hh.symm) ⟨by decide, by decide⟩ rfl rfl rfl

theorem afterCancel_nw (u : Bool) : afterCancel u ≠ .waiting ∧ afterCancel u ≠ .body := by cases u <;> decide

theorem step_queue {s : State} (h : Inv s) (q : Queue s) (a : Act) : Queue (step s a) := by
  cases a with
  | append j =>
    simp only [step, append]
    split
    · exact ⟨q.wait, q.nodup, q.holder, q.all, q.idle⟩
    · exact q
  | take j =>
    simp only [step, take]
    split
    · exact q
    · have hi := h.future s.next (Nat.le_refl _)
      exact q.move (k := s.next) (p := .permitted) (by rw [hi]; decide) (by decide) rfl rfl rfl
  | file k =>
    simp only [step, file]
    split
    · rename_i hk
      exact q.move (k := k) (p := .filed) (by rw [hk]; decide) (by decide) rfl rfl rfl
    · exact q
  | enter k =>
    simp only [step, enter]
    by_cases hk : s.pc k = .filed
    · rw [if_pos hk]
      by_cases hh : s.holder = none
      · rw [if_pos hh]
        exact begin_queue q (by rw [hk]; decide) (.inl ⟨hh, by rw [hk]; decide⟩)
      · rw [if_neg hh]
        have hn : k ∉ s.waiters := fun m => by have := (q.wait k m).1; rw [hk] at this; cases this
        have hn2 : s.holder ≠ some k := fun m => by have := q.holder k m; rw [hk] at this; rcases this with e | e <;> cases e
        refine ⟨?_, ?_, ?_, ?_, fun e => absurd e hh⟩
        · intro j hj
          have hj' : j ∈ s.waiters ++ [k] := hj
          show upd s.pc k .waiting j = .waiting ∧ s.holder ≠ some j
          rcases List.mem_append.mp hj' with m | m
          · have hne : j ≠ k := by rintro rfl; exact hn m
            rw [upd_ne _ _ hne]; exact q.wait j m
          · rw [List.mem_singleton] at m; subst m; exact ⟨upd_same .., hn2⟩
        · show (s.waiters ++ [k]).Nodup
          rw [List.nodup_append]
          refine ⟨q.nodup, by simp, ?_⟩
          intro x hx y hy e
          rw [List.mem_singleton] at hy
          exact hn (hy ▸ e ▸ hx)
        · intro j hj
          have hj' : s.holder = some j := hj
          show upd s.pc k .waiting j = .body ∨ upd s.pc k .waiting j = .waiting
          have hne : j ≠ k := by rintro rfl; exact hn2 hj'
          rw [upd_ne _ _ hne]; exact q.holder j hj'
        · intro j hj
          have hj' : upd s.pc k .waiting j = .waiting := hj
          show j ∈ s.waiters ++ [k] ∨ s.holder = some j
          by_cases e : j = k
          · subst e; left; simp
          · rw [upd_ne _ _ e] at hj'
            exact (q.all j hj').imp (fun m => List.mem_append_left _ m) id
    · rw [if_neg hk]; exact q
  | resume k =>
    simp only [step, resume]
    split
    · rename_i hk
      exact begin_queue q (by rw [hk.1]; decide) (.inr hk.2)
    · exact q
  | finish k o =>
    simp only [step, finish]
    split
    · rename_i hk
      exact q.pass (k := k) (p := .after) (.inl (h.lock k hk.1).1) ⟨by decide, by decide⟩ rfl rfl rfl
    · exact q
  | update k =>
    simp only [step, update]
    split
    · rename_i hk
      exact q.move (k := k) (p := .over) (by rw [hk]; decide) (by decide) rfl rfl rfl
    · exact q
  | abort j =>
    simp only [step, abort]
    split
    · exact q
    · exact ⟨q.wait, q.nodup, q.holder, q.all, q.idle⟩
  | cancel k u =>
    simp only [step, cancel]
    cases hk : s.pc k with
    | idle => exact q
    | over => exact q
    | permitted => exact q.move (k := k) (p := .over) (by rw [hk]; decide) (by decide) rfl rfl rfl
    | filed => exact q.move (k := k) (p := .over) (by rw [hk]; decide) (by decide) rfl rfl rfl
    | after => exact q.move (k := k) (p := .over) (by rw [hk]; decide) (by decide) rfl rfl rfl
    | body => exact q.pass (k := k) (.inl (h.lock k hk).1) (afterCancel_nw u) rfl rfl rfl
    | waiting =>
      by_cases hh : s.holder = some k
      · rw [if_pos hh]
        exact q.pass (k := k) (.inl hh) (afterCancel_nw u) rfl rfl rfl
      · rw [if_neg hh]
        have hsub : ∀ j, j ∈ s.waiters.erase k ↔ j ≠ k ∧ j ∈ s.waiters := fun j => q.nodup.mem_erase_iff
        refine ⟨?_, ?_, ?_, ?_, ?_⟩
        · intro j hj
          have hj' : j ∈ s.waiters.erase k := hj
          have hjj := (hsub j).mp hj'
          show upd s.pc k (afterCancel u) j = .waiting ∧ s.holder ≠ some j
          rw [upd_ne _ _ hjj.1]; exact q.wait j hjj.2
        · exact q.nodup.erase k
        · intro j hj
          have hj' : s.holder = some j := hj
          show upd s.pc k (afterCancel u) j = .body ∨ upd s.pc k (afterCancel u) j = .waiting
          have hne : j ≠ k := by rintro rfl; exact hh hj'
          rw [upd_ne _ _ hne]; exact q.holder j hj'
        · intro j hj
          have hj' : upd s.pc k (afterCancel u) j = .waiting := hj
          show j ∈ s.waiters.erase k ∨ s.holder = some j
          by_cases e : j = k
          · subst e; rw [upd_same] at hj'; exact absurd hj' (afterCancel_nw u).1
          · rw [upd_ne _ _ e] at hj'
            exact (q.all j hj').imp (fun m => (hsub j).mpr ⟨e, m⟩) id
        · intro e
          have e' : s.holder = none := e
          show s.waiters.erase k = []
          rw [q.idle e']; rfl

theorem init_queue : Queue {} := ⟨fun _ h => (nomatch h), List.Pairwise.nil, fun _ h => (nomatch h), fun _ h => (nomatch h), fun _ => rfl⟩

theorem run_queue (h : List Act) : ∀ {s : State}, Inv s → Queue s → Queue (run s h) := by
  induction h with
  | nil => intro s _ hq; exact hq
  | cons a h ih => intro s hs hq; exact ih (step_inv hs a) (step_queue hs hq a)

/-- **C310.**  No attempt is stuck: while one waits for the event, the lock is held either by the attempt that runs the body, whose end passes it on, or by one that was given it and goes on. -/
theorem C310_not_stuck (h : List Act) (k : Nat) (hk : (run {} h).pc k = .waiting) :
    ∃ m, (run {} h).holder = some m ∧
      (((run {} h).pc m = .body ∧ (run {} (h ++ [.finish m .completed])).pc m = .after) ∨
       ((run {} h).pc m = .waiting ∧ (run {} (h ++ [.resume m])).pc m ≠ .waiting)) := by
  have hi := run_inv h init_inv
  have q := run_queue h init_inv init_queue
  have e : ∀ a, run {} (h ++ [a]) = step (run {} h) a := by intro a; unfold run; rw [List.foldl_append]; rfl
  simp only [e]
  generalize run {} h = s at *
  have hm : ∃ m, s.holder = some m := by
    cases hh : s.holder with
    | some m => exact ⟨m, rfl⟩
    | none =>
      have := q.idle hh
      rcases q.all k hk with m | m
      · rw [this] at m; cases m
      · rw [hh] at m; cases m
  obtain ⟨m, hm⟩ := hm
  refine ⟨m, hm, ?_⟩
  rcases q.holder m hm with b | b
  · refine .inl ⟨b, ?_⟩
    show (finish s m .completed).pc m = .after
    unfold finish
    rw [if_pos ⟨b, .inl rfl⟩]
    exact upd_same ..
  · refine .inr ⟨b, ?_⟩
    simp only [step, resume]
    rw [if_pos ⟨b, hm⟩]
    unfold begin_
    split
    · show upd s.pc m .body m ≠ .waiting
      rw [upd_same]; decide
    · show upd s.pc m .after m ≠ .waiting
      rw [upd_same]; decide

/-- Attempt `k` came to the event before attempt `m`. -/
structure Ahead (k m : Nat) (s : State) : Prop where
  came : s.pc k = .waiting ∨ s.pc k = .body ∨ s.pc k = .after ∨ s.pc k = .over
  first : s.pc k = .waiting → s.holder ≠ some m ∧ (s.holder = some k ∨ s.pc m ≠ .waiting ∨ [k, m].Sublist s.waiters)

theorem Ahead.move {k m : Nat} {s t : State} (g : Ahead k m s) {x : Nat} {p : PC} (hx : s.pc x ≠ .waiting) (hp : p ≠ .waiting) (hc : x = k → p = .body ∨ p = .after ∨ p = .over) (e1 : t.pc = upd s.pc x p)
    (e2 : t.holder = s.holder) (e3 : t.waiters = s.waiters) : Ahead k m t := by
  refine ⟨?_, ?_⟩
  · rw [e1]
    by_cases e : k = x
    · subst e; rw [upd_same]; exact .inr (hc rfl)
    · rw [upd_ne _ _ e]; exact g.came
  · intro hk
    rw [e1] at hk ⊢
    have hne : k ≠ x := by rintro rfl; rw [upd_same] at hk; exact hp hk
    rw [upd_ne _ _ hne] at hk
    rw [e2, e3]
    refine ⟨(g.first hk).1, ?_⟩
    rcases (g.first hk).2 with h | h | h
    · exact .inl h
    · right; left
      by_cases e : m = x
      · subst e; rw [upd_same]; exact hp
      · rw [upd_ne _ _ e]; exact h
    · exact .inr (.inr h)

theorem Ahead.pass {k m : Nat} {s t : State} (hkm : k ≠ m) (q : Queue s) (g : Ahead k m s) {x : Nat} {p : PC} (hh : s.holder = some x ∨ (s.holder = none ∧ s.pc x ≠ .waiting))
    (hp : p = .after ∨ p = .over) (e1 : t.pc = upd s.pc x p) (e2 : t.holder = s.waiters.head?) (e3 : t.waiters = s.waiters.tail) : Ahead k m t := by
  have hpw : p ≠ .waiting := by rcases hp with rfl | rfl <;> decide
  refine ⟨?_, ?_⟩
  · rw [e1]
    by_cases e : k = x
    · subst e; rw [upd_same]; exact .inr (.inr hp)
    · rw [upd_ne _ _ e]; exact g.came
  · intro hk
    rw [e1] at hk ⊢
    have hne : k ≠ x := by rintro rfl; rw [upd_same] at hk; exact hpw hk
    rw [upd_ne _ _ hne] at hk
    have hkh : s.holder ≠ some k := by
      intro e
      rcases hh with h | h
      · rw [h] at e; cases e; exact hne rfl
      · rw [h.1] at e; cases e
    have hkw : k ∈ s.waiters := (q.all k hk).resolve_right hkh
    rw [e2, e3]
    cases hw : s.waiters with
    | nil => rw [hw] at hkw; cases hkw
    | cons a ws =>
      have hn := q.nodup
      rw [hw, List.nodup_cons] at hn
      rw [hw] at hkw
      have ha : a ∈ s.waiters := by rw [hw]; exact List.mem_cons_self
      show some a ≠ some m ∧ (some a = some k ∨ _ ∨ [k, m].Sublist ws)
      rcases (g.first hk).2 with h | h | h
      · exact absurd h hkh
      · refine ⟨fun e => ?_, ?_⟩
        · cases e; exact h (q.wait m ha).1
        · right; left
          by_cases e : m = x
          · subst e; rw [upd_same]; exact hpw
          · rw [upd_ne _ _ e]; exact h
      · rw [hw] at h
        by_cases eak : a = k
        · subst eak
          exact ⟨fun e => by cases e; exact hkm rfl, .inl rfl⟩
        · have hs : [k, m].Sublist ws := by
            cases h with
            | cons _ h => exact h
            | cons_cons _ _ => exact absurd rfl eak
          refine ⟨fun e => ?_, .inr (.inr hs)⟩
          cases e
          exact hn.1 (hs.subset (by simp))

theorem begin_ahead {k m : Nat} {s : State} (hkm : k ≠ m) (q : Queue s) (g : Ahead k m s) {x : Nat} (hp : s.pc x ≠ .body)
    (hh : (s.holder = none ∧ s.pc x ≠ .waiting) ∨ s.holder = some x) : Ahead k m (begin_ s x) := by
  unfold begin_
  split
  · refine ⟨?_, ?_⟩
    · show upd s.pc x .body k = .waiting ∨ upd s.pc x .body k = .body ∨ upd s.pc x .body k = .after ∨ upd s.pc x .body k = .over
      by_cases e : k = x
      · subst e; rw [upd_same]; exact .inr (.inl rfl)
      · rw [upd_ne _ _ e]; exact g.came
    · intro hk
      have hk' : upd s.pc x .body k = .waiting := hk
      have hne : k ≠ x := by rintro rfl; rw [upd_same] at hk'; cases hk'
      rw [upd_ne _ _ hne] at hk'
      have hx : s.holder = some x := by
        rcases hh with h | h
        · rcases q.all k hk' with w | w
          · rw [q.idle h.1] at w; cases w
          · rw [h.1] at w; cases w
        · exact h
      have f := g.first hk'
      have hmx : m ≠ x := fun e => f.1 (by rw [hx, e])
      show some x ≠ some m ∧ (some x = some k ∨ upd s.pc x .body m ≠ .waiting ∨ [k, m].Sublist s.waiters)
      refine ⟨fun e => by cases e; exact hmx rfl, ?_⟩
      rw [upd_ne _ _ hmx, ← hx]
      exact f.2
  · exact Ahead.pass hkm q g (x := x) hh.symm (.inl rfl) rfl rfl rfl

theorem afterCancel_two (u : Bool) : afterCancel u = .after ∨ afterCancel u = .over := by cases u <;> decide

theorem step_ahead {k m : Nat} {s : State} (hkm : k ≠ m) (i : Inv s) (q : Queue s) (g : Ahead k m s) (a : Act) : Ahead k m (step s a) := by
  have notk : ∀ x, s.pc x = .idle ∨ s.pc x = .permitted ∨ s.pc x = .filed → x ≠ k := by
    rintro x hx rfl
    have := g.came
    rcases hx with e | e | e <;> rw [e] at this <;> simp at this
  cases a with
  | append j =>
    simp only [step, append]
    split
    · exact ⟨g.came, g.first⟩
    · exact g
  | take j =>
    simp only [step, take]
    split
    · exact g
    · have hi := i.future s.next (Nat.le_refl _)
      exact g.move (x := s.next) (p := .permitted) (by rw [hi]; decide) (by decide) (fun e => absurd e (notk _ (.inl hi))) rfl rfl rfl
  | file x =>
    simp only [step, file]
    split
    · rename_i hx
      exact g.move (x := x) (p := .filed) (by rw [hx]; decide) (by decide) (fun e => absurd e (notk _ (.inr (.inl hx)))) rfl rfl rfl
    · exact g
  | enter x =>
    simp only [step, enter]
    by_cases hx : s.pc x = .filed
    · rw [if_pos hx]
      by_cases hh : s.holder = none
      · rw [if_pos hh]
        exact begin_ahead hkm q g (by rw [hx]; decide) (.inl ⟨hh, by rw [hx]; decide⟩)
      · rw [if_neg hh]
        have hkx : x ≠ k := notk x (.inr (.inr hx))
        refine ⟨?_, ?_⟩
        · show upd s.pc x .waiting k = .waiting ∨ upd s.pc x .waiting k = .body ∨ upd s.pc x .waiting k = .after ∨ upd s.pc x .waiting k = .over
          rw [upd_ne _ _ hkx.symm]; exact g.came
        · intro hk
          have hk' : upd s.pc x .waiting k = .waiting := hk
          rw [upd_ne _ _ hkx.symm] at hk'
          show s.holder ≠ some m ∧ (s.holder = some k ∨ upd s.pc x .waiting m ≠ .waiting ∨ [k, m].Sublist (s.waiters ++ [x]))
          refine ⟨(g.first hk').1, ?_⟩
          rcases (g.first hk').2 with h | h | h
          · exact .inl h
          · by_cases e : m = x
            · subst e
              rcases q.all k hk' with w | w
              · right; right
                exact List.Sublist.append (l₁ := [k]) (r₁ := [m]) (List.singleton_sublist.mpr w) (List.Sublist.refl _)
              · exact .inl w
            · right; left; rw [upd_ne _ _ e]; exact h
          · exact .inr (.inr (h.trans (List.sublist_append_left _ _)))
    · rw [if_neg hx]; exact g
  | resume x =>
    simp only [step, resume]
    split
    · rename_i hx
      exact begin_ahead hkm q g (by rw [hx.1]; decide) (.inr hx.2)
    · exact g
  | finish x o =>
    simp only [step, finish]
    split
    · rename_i hx
      exact Ahead.pass hkm (s := s) q g (x := x) (p := .after) (.inl (i.lock x hx.1).1) (.inl rfl) rfl rfl rfl
    · exact g
  | update x =>
    simp only [step, update]
    split
    · rename_i hx
      exact g.move (x := x) (p := .over) (by rw [hx]; decide) (by decide) (fun _ => .inr (.inr rfl)) rfl rfl rfl
    · exact g
  | abort j =>
    simp only [step, abort]
    split
    · exact g
    · exact ⟨g.came, g.first⟩
  | cancel x u =>
    simp only [step, cancel]
    cases hx : s.pc x with
    | idle => exact g
    | over => exact g
    | permitted => exact g.move (x := x) (p := .over) (by rw [hx]; decide) (by decide) (fun _ => .inr (.inr rfl)) rfl rfl rfl
    | filed => exact g.move (x := x) (p := .over) (by rw [hx]; decide) (by decide) (fun _ => .inr (.inr rfl)) rfl rfl rfl
    | after => exact g.move (x := x) (p := .over) (by rw [hx]; decide) (by decide) (fun _ => .inr (.inr rfl)) rfl rfl rfl
    | body => exact Ahead.pass hkm (s := s) q g (x := x) (.inl (i.lock x hx).1) (afterCancel_two u) rfl rfl rfl
    | waiting =>
      by_cases hh : s.holder = some x
      · rw [if_pos hh]
        exact Ahead.pass hkm q g (x := x) (.inl hh) (afterCancel_two u) rfl rfl rfl
      · rw [if_neg hh]
        refine ⟨?_, ?_⟩
        · show upd s.pc x (afterCancel u) k = .waiting ∨ upd s.pc x (afterCancel u) k = .body ∨ upd s.pc x (afterCancel u) k = .after ∨ upd s.pc x (afterCancel u) k = .over
          by_cases e : k = x
          · subst e; rw [upd_same]; exact .inr (.inr (afterCancel_two u))
          · rw [upd_ne _ _ e]; exact g.came
        · intro hk
          have hk' : upd s.pc x (afterCancel u) k = .waiting := hk
          have hne : k ≠ x := by rintro rfl; rw [upd_same] at hk'; exact (afterCancel_nw u).1 hk'
          rw [upd_ne _ _ hne] at hk'
          show s.holder ≠ some m ∧ (s.holder = some k ∨ upd s.pc x (afterCancel u) m ≠ .waiting ∨ [k, m].Sublist (s.waiters.erase x))
          refine ⟨(g.first hk').1, ?_⟩
          by_cases e : m = x
          · subst e; right; left; rw [upd_same]; exact (afterCancel_nw u).1
          · rcases (g.first hk').2 with h | h | h
            · exact .inl h
            · right; left; rw [upd_ne _ _ e]; exact h
            · right; right
              have := h.erase x
              rw [List.erase_of_not_mem (by simp; exact ⟨fun c => hne c.symm, fun c => e c.symm⟩)] at this
              exact this

/-- **C310.**  The turns are given in the order of arrival: while an attempt waits for the event, no attempt that came later gets it. -/
theorem C310_turn (h g : List Act) (k m : Nat) (hk : (run {} h).pc k = .waiting) (hm : (run {} h).pc m = .idle ∨ (run {} h).pc m = .permitted ∨ (run {} h).pc m = .filed)
    (hs : (run {} (h ++ g)).pc k = .waiting) : (run {} (h ++ g)).holder ≠ some m ∧ (run {} (h ++ g)).pc m ≠ .body := by
  have hkm : k ≠ m := by
    rintro rfl
    rw [hk] at hm; simp at hm
  have e : run {} (h ++ g) = run (run {} h) g := by unfold run; rw [List.foldl_append]
  have i := run_inv h init_inv
  have q := run_queue h init_inv init_queue
  have i2 := run_inv (h ++ g) init_inv
  rw [e] at hs i2 ⊢
  clear e
  have a0 : Ahead k m (run {} h) := by
    refine ⟨.inl hk, fun _ => ⟨fun c => ?_, .inr (.inl ?_)⟩⟩
    · have := q.holder m c
      rcases hm with w | w | w <;> rw [w] at this <;> simp at this
    · rcases hm with w | w | w <;> rw [w] <;> decide
  generalize run {} h = s at *
  have key : ∀ (l : List Act) (s : State), Inv s → Queue s → Ahead k m s → Ahead k m (run s l) := by
    intro l
    induction l with
    | nil => intro s _ _ a; exact a
    | cons a l ih => intro s i q b; exact ih (step s a) (step_inv i a) (step_queue i q a) (step_ahead hkm i q b a)
  have f := (key g s i q a0).first hs
  exact ⟨f.1, fun c => f.1 (i2.lock m c).1⟩

/-! ## What an executor has -/

/-- The body has been begun exactly if the event is not pending; the executors have what was given to them. -/
structure Known (h : List Act) (s : State) : Prop where
  runs : (s.status = .pending ∧ s.runs = 0) ∨ (s.status ≠ .pending ∧ s.runs = 1)
  listed : ∀ j, s.listed j ≠ none ↔ Act.append j ∈ h
  taken : ∀ k < s.next, Act.append (s.ex k) ∈ h

theorem Known.keep {h : List Act} {s t : State} {a : Act} (w : Known h s) (ha : ∀ j, a ≠ .append j) (h1 : (t.status = .pending ∧ t.runs = 0) ∨ (t.status ≠ .pending ∧ t.runs = 1))
    (h2 : ∀ j, t.listed j ≠ none ↔ s.listed j ≠ none) (h3 : t.next = s.next) (h4 : t.ex = s.ex) : Known (h ++ [a]) t := by
  refine ⟨h1, fun j => ?_, fun k hk => ?_⟩
  · rw [h2, w.listed]; simp [(ha j).symm]
  · rw [h3] at hk; rw [h4]; exact List.mem_append_left _ (w.taken k hk)

theorem upd_listed (g : Nat → Option Status) (j i : Nat) (v : Status) (hj : g j ≠ none) : upd g j (some v) i ≠ none ↔ g i ≠ none := by
  by_cases e : i = j
  · subst e; rw [upd_same]; simp [hj]
  · rw [upd_ne _ _ e]

theorem begin_runs {s : State} {k : Nat} (w : (s.status = .pending ∧ s.runs = 0) ∨ (s.status ≠ .pending ∧ s.runs = 1)) :
    ((begin_ s k).status = .pending ∧ (begin_ s k).runs = 0) ∨ ((begin_ s k).status ≠ .pending ∧ (begin_ s k).runs = 1) := by
  unfold begin_
  split
  · rename_i hs
    rcases w with w | w
    · exact .inr ⟨by simp [State.goto], by simp [State.goto, w.2]⟩
    · exact absurd hs w.1
  · exact w

theorem begin_rest (s : State) (k : Nat) : (begin_ s k).listed = s.listed ∧ (begin_ s k).next = s.next ∧ (begin_ s k).ex = s.ex := by
  unfold begin_; split <;> exact ⟨rfl, rfl, rfl⟩

theorem step_known {h : List Act} {s : State} (i : Inv s) (w : Known h s) (a : Act) : Known (h ++ [a]) (step s a) := by
  have none' : ∀ a : Act, (∀ j, a ≠ .append j) → Known (h ++ [a]) s := fun a ha => w.keep ha w.runs (fun _ => Iff.rfl) rfl rfl
  have mine : ∀ k, s.pc k ≠ .idle → s.listed (s.ex k) ≠ none := fun k hk => (w.listed _).mpr (w.taken k (i.lt hk))
  cases a with
  | append j =>
    simp only [step, append]
    split
    · rename_i hj
      refine ⟨w.runs, fun m => ?_, fun k hk => List.mem_append_left _ (w.taken k hk)⟩
      show upd s.listed j (some .pending) m ≠ none ↔ _
      by_cases e : m = j
      · subst e; rw [upd_same]; simp
      · rw [upd_ne _ _ e, w.listed]; simp [e]
    · rename_i hj
      refine ⟨w.runs, fun m => ?_, fun k hk => List.mem_append_left _ (w.taken k hk)⟩
      rw [w.listed]
      by_cases e : m = j
      · subst e; have := (w.listed m).mp hj; simp [this]
      · simp [e]
  | take j =>
    simp only [step, take]
    split
    · exact none' _ (by simp)
    · rename_i hj
      refine ⟨w.runs, fun m => ?_, fun k hk => ?_⟩
      · rw [w.listed]; simp
      · have hk' : k < s.next + 1 := hk
        show Act.append (upd s.ex s.next j k) ∈ _
        by_cases e : k = s.next
        · subst e; rw [upd_same]; exact List.mem_append_left _ ((w.listed j).mp hj)
        · rw [upd_ne _ _ e]; exact List.mem_append_left _ (w.taken k (by omega))
  | file k =>
    simp only [step, file]
    split
    · rename_i hk
      exact w.keep (by simp) w.runs (fun j => upd_listed _ _ _ _ (mine k (by rw [hk]; decide))) rfl rfl
    · exact none' _ (by simp)
  | enter k =>
    simp only [step, enter]
    by_cases hk : s.pc k = .filed
    · rw [if_pos hk]
      by_cases hh : s.holder = none
      · rw [if_pos hh]
        have r := begin_rest s k
        exact w.keep (by simp) (begin_runs w.runs) (fun j => by rw [r.1]) r.2.1 r.2.2
      · rw [if_neg hh]
        exact w.keep (by simp) w.runs (fun _ => Iff.rfl) rfl rfl
    · rw [if_neg hk]; exact none' _ (by simp)
  | resume k =>
    simp only [step, resume]
    split
    · have r := begin_rest s k
      exact w.keep (by simp) (begin_runs w.runs) (fun j => by rw [r.1]) r.2.1 r.2.2
    · exact none' _ (by simp)
  | finish k o =>
    simp only [step, finish]
    split
    · rename_i hk
      refine w.keep (by simp) (.inr ⟨?_, ?_⟩) (fun _ => Iff.rfl) rfl rfl
      · show o ≠ .pending
        rcases hk.2 with e | e | e <;> rw [e] <;> decide
      · rcases w.runs with r | r
        · have := (i.lock k hk.1).2; rw [r.1] at this; cases this
        · exact r.2
    · exact none' _ (by simp)
  | update k =>
    simp only [step, update]
    split
    · rename_i hk
      exact w.keep (by simp) w.runs (fun j => upd_listed _ _ _ _ (mine k (by rw [hk]; decide))) rfl rfl
    · exact none' _ (by simp)
  | abort j =>
    simp only [step, abort]
    split
    · exact none' _ (by simp)
    · rename_i hj
      exact w.keep (by simp) w.runs (fun m => upd_listed _ _ _ _ hj) rfl rfl
  | cancel k u =>
    simp only [step, cancel]
    cases hk : s.pc k with
    | idle => exact none' _ (by simp)
    | over => exact none' _ (by simp)
    | permitted => exact w.keep (by simp) w.runs (fun _ => Iff.rfl) rfl rfl
    | filed => exact w.keep (by simp) w.runs (fun _ => Iff.rfl) rfl rfl
    | after => exact w.keep (by simp) w.runs (fun _ => Iff.rfl) rfl rfl
    | body =>
      refine w.keep (by simp) (.inr ⟨?_, ?_⟩) (fun _ => Iff.rfl) rfl rfl
      · show Status.cancelled ≠ .pending
        decide
      · rcases w.runs with r | r
        · have := (i.lock k hk).2; rw [r.1] at this; cases this
        · exact r.2
    | waiting =>
      by_cases hh : s.holder = some k
      · rw [if_pos hh]; exact w.keep (by simp) w.runs (fun _ => Iff.rfl) rfl rfl
      · rw [if_neg hh]; exact w.keep (by simp) w.runs (fun _ => Iff.rfl) rfl rfl

theorem run_known (h : List Act) : Known h (run {} h) := by
  have key : ∀ (l p : List Act) (s : State), Inv s → Known p s → Known (p ++ l) (run s l) := by
    intro l
    induction l with
    | nil => intro p s _ w; rw [List.append_nil]; exact w
    | cons a l ih =>
      intro p s i w
      have := ih (p ++ [a]) (step s a) (step_inv i a) (step_known i w a)
      rw [List.append_assoc] at this
      exact this
  have w0 : Known [] {} := ⟨.inl ⟨rfl, rfl⟩, fun j => by simp, fun k hk => absurd hk (Nat.not_lt_zero k)⟩
  simpa using key h [] {} init_inv w0

/-- **C310.**  The body has been begun exactly once if the event is not pending any more, and not at all while it is; an executor lists the event exactly if it was given it, and makes no attempt
otherwise. -/
theorem C310_begun (h : List Act) :
    ((run {} h).status = .pending → (run {} h).runs = 0) ∧ ((run {} h).status ≠ .pending → (run {} h).runs = 1) ∧
    (∀ j, (run {} h).listed j ≠ none ↔ Act.append j ∈ h) ∧ ∀ k, (run {} h).pc k ≠ .idle → Act.append ((run {} h).ex k) ∈ h := by
  have w := run_known h
  have i := run_inv h init_inv
  refine ⟨fun e => ?_, fun e => ?_, w.listed, fun k hk => w.taken k (i.lt hk)⟩
  · rcases w.runs with r | r
    · exact r.2
    · exact absurd e r.1
  · rcases w.runs with r | r
    · exact absurd r.1 e
    · exact r.2

theorem begin_status {s : State} (k : Nat) (he : Ended s.status) : (begin_ s k).status = s.status := by
  unfold begin_
  rw [if_neg (by intro e; rw [e] at he; rcases he with h | h | h <;> cases h)]; rfl

theorem step_ended {s : State} (h : Inv s) (he : Ended s.status) (a : Act) : (step s a).status = s.status := by
  have hb : ∀ k, s.pc k ≠ .body := by
    intro k e; have := (h.lock k e).2; rw [this] at he; rcases he with h | h | h <;> cases h
  cases a with
  | append j => simp only [step, append]; split <;> rfl
  | take j => simp only [step, take]; split <;> rfl
  | file k => simp only [step, file]; split <;> rfl
  | enter k =>
    simp only [step, enter]; split
    · split
      · exact begin_status k he
      · rfl
    · rfl
  | resume k =>
    simp only [step, resume]; split
    · exact begin_status k he
    · rfl
  | finish k o =>
    simp only [step, finish]; split
    · rename_i hk; exact absurd hk.1 (hb k)
    · rfl
  | update k => simp only [step, update]; split <;> rfl
  | abort j => simp only [step, abort]; split <;> rfl
  | cancel k u =>
    simp only [step, cancel]
    cases hk : s.pc k with
    | body => exact absurd hk (hb k)
    | waiting => dsimp only; split <;> rfl
    | _ => rfl

/-- **C310.**  Once the event has ended its status does not change any more. -/
theorem C310_final (h g : List Act) (he : Ended (run {} h).status) : (run {} (h ++ g)).status = (run {} h).status := by
  have hi := run_inv h init_inv
  have e : run {} (h ++ g) = run (run {} h) g := by unfold run; rw [List.foldl_append]
  rw [e]
  clear e
  generalize run {} h = s at *
  induction g generalizing s with
  | nil => rfl
  | cons a g ih =>
    have e := step_ended hi he a
    have := ih (step s a) (by rw [e]; exact he) (step_inv hi a)
    rw [show run s (a :: g) = run (step s a) g from rfl, this, e]

/-! ## The lists of one executor -/

/-- What holds of executor `j` as long as the history is smooth for it. -/
structure Lists (j : Nat) (s : State) : Prop where
  after : ∀ k, s.ex k = j → s.pc k = .after → Ended s.status
  over : Tried s j → (Ended s.status ∧ s.listed j = some s.status) ∨ ∃ k, s.ex k = j ∧ Busy (s.pc k)
  none : (∀ k, s.ex k = j → ¬ Busy (s.pc k) ∧ s.pc k ≠ .over) → s.listed j = none ∨ s.listed j = some .pending

theorem begin_pc (s : State) (k : Nat) : (begin_ s k).pc = upd s.pc k .body ∨ ((begin_ s k).pc = upd s.pc k .after ∧ s.status ≠ .pending) := by
  unfold begin_; split
  · exact Or.inl rfl
  · rename_i h; exact Or.inr ⟨rfl, h⟩
theorem begin_ex (s : State) (k : Nat) : (begin_ s k).ex = s.ex ∧ (begin_ s k).listed = s.listed := by
  unfold begin_; split <;> exact ⟨rfl, rfl⟩

/-- An attempt, of executor `j` or another one, goes on while filed; nothing is listed. -/
theorem Lists.go {j : Nat} {s t : State} (h : Lists j s) {k : Nat} {p : PC} (hk : Busy (s.pc k)) (hp : Busy p) (e1 : t.pc = upd s.pc k p) (e2 : t.ex = s.ex) (e3 : t.listed = s.listed)
    (he : Ended s.status → t.status = s.status) (ha : p = .after → s.ex k = j → Ended t.status) : Lists j t := by
  have hno : p ≠ .over := by rcases hp with rfl | rfl | rfl | rfl <;> decide
  have hnk : s.pc k ≠ .over := by intro e; rw [e] at hk; rcases hk with h | h | h | h <;> cases h
  refine ⟨fun k' hx hb => ?_, ?_, fun hn => ?_⟩
  · rw [e2] at hx; rw [e1] at hb
    by_cases e : k' = k
    · subst e; rw [upd_same] at hb; exact ha hb hx
    · rw [upd_ne _ _ e] at hb
      have := h.after k' hx hb
      rw [he this]; exact this
  · rintro ⟨k', hx, hb⟩
    rw [e2] at hx; rw [e1] at hb
    have e : k' ≠ k := by intro e; subst e; rw [upd_same] at hb; exact hno hb
    rw [upd_ne _ _ e] at hb
    rcases h.over ⟨k', hx, hb⟩ with ⟨h1, h2⟩ | ⟨k2, h1, h2⟩
    · left; rw [he h1, e3]; exact ⟨h1, h2⟩
    · right
      refine ⟨k2, by rw [e2]; exact h1, ?_⟩
      rw [e1]
      by_cases e : k2 = k
      · subst e; rw [upd_same]; exact hp
      · rw [upd_ne _ _ e]; exact h2
  · rw [e3]
    refine h.none (fun k' hx => ?_)
    have := hn k' (by rw [e2]; exact hx)
    rw [e1] at this
    by_cases e : k' = k
    · subst e; rw [upd_same] at this; exact absurd hp this.1
    · rw [upd_ne _ _ e] at this; exact this

/-- An attempt of another executor moves in any way; nothing that concerns `j` is listed. -/
theorem Lists.other {j : Nat} {s t : State} (h : Lists j s) {k : Nat} {p : PC} (hk : s.ex k ≠ j) (e1 : t.pc = upd s.pc k p) (e2 : t.ex = s.ex) (e3 : t.listed j = s.listed j)
    (he : Ended s.status → t.status = s.status) : Lists j t := by
  have key : ∀ k', s.ex k' = j → t.pc k' = s.pc k' := fun k' hx => by rw [e1]; exact upd_ne _ _ (fun e => hk (by rw [← e]; exact hx))
  refine ⟨fun k' hx hb => ?_, ?_, fun hn => ?_⟩
  · rw [e2] at hx; rw [key k' hx] at hb
    have := h.after k' hx hb
    rw [he this]; exact this
  · rintro ⟨k', hx, hb⟩
    rw [e2] at hx; rw [key k' hx] at hb
    rcases h.over ⟨k', hx, hb⟩ with ⟨h1, h2⟩ | ⟨k2, h1, h2⟩
    · left; rw [he h1, e3]; exact ⟨h1, h2⟩
    · exact Or.inr ⟨k2, by rw [e2]; exact h1, by rw [key k2 h1]; exact h2⟩
  · rw [e3]
    refine h.none (fun k' hx => ?_)
    have := hn k' (by rw [e2]; exact hx)
    rw [key k' hx] at this; exact this

/-- The step is smooth for executor `j`. -/
def Fair (j : Nat) (s : State) : Act → Prop
  | .cancel k _ => s.ex k ≠ j
  | .abort i => i ≠ j
  | _ => True

theorem step_lists {j : Nat} {s : State} (hi : Inv s) (h : Lists j s) (a : Act) (hf : Fair j s a) : Lists j (step s a) := by
  have keep : ∀ a, Ended s.status → (step s a).status = s.status := fun a he => step_ended hi he a
  have start : ∀ k, Busy (s.pc k) → s.pc k ≠ .body → (s.holder = none ∨ s.holder = some k) → Lists j (begin_ s k) := by
    intro k hb hnb hh
    have hn := hi.not_processing (k := k) (hh.imp id fun e => ⟨e, hnb⟩)
    obtain ⟨b1, b2⟩ := begin_ex s k
    rcases begin_pc s k with e | ⟨e, hs⟩
    · exact h.go hb (p := .body) (Or.inr (Or.inr (Or.inl rfl))) e b1 b2 (begin_status k) (fun e => nomatch e)
    · have he : Ended s.status := by
        have := hi.kind
        revert hs hn this
        cases s.status <;> intro hs hn hk
        · first | exact absurd rfl hs | exact absurd rfl hn
        · first | exact absurd rfl hs | exact absurd rfl hn
        · exact Or.inl rfl
        · exact Or.inr (Or.inl rfl)
        · exact Or.inr (Or.inr rfl)
        · exact absurd rfl hk
      exact h.go hb (p := .after) (Or.inr (Or.inr (Or.inr rfl))) e b1 b2 (begin_status k) (fun _ _ => by rw [begin_status k he]; exact he)
  have lost : ∀ i st, i ≠ j → Lists j (s.list i st) := by
    intro i st hne
    have e : (s.list i st).listed j = s.listed j := upd_ne _ _ (Ne.symm hne)
    exact ⟨h.after, fun ht => by rw [e]; exact h.over ht, fun hn => by rw [e]; exact h.none hn⟩
  cases a with
  | append i =>
    simp only [step, append]
    split
    · rename_i hl
      by_cases e : i = j
      · subst e
        have en : (s.list i .pending).listed i = some .pending := upd_same ..
        refine ⟨h.after, fun ht => ?_, fun _ => Or.inr en⟩
        rcases h.over ht with ⟨_, h2⟩ | h2
        · rw [hl] at h2; cases h2
        · exact Or.inr h2
      · exact lost i _ e
    · exact h
  | take i =>
    simp only [step, take]
    split
    · exact h
    · have key : ∀ k, s.pc k ≠ .idle → upd s.pc s.next .permitted k = s.pc k ∧ upd s.ex s.next i k = s.ex k := by
        intro k hk
        have : k ≠ s.next := by have := hi.lt hk; omega
        exact ⟨upd_ne _ _ this, upd_ne _ _ this⟩
      have back : ∀ k p, upd s.pc s.next .permitted k = p → p ≠ .permitted → s.pc k = p ∧ k ≠ s.next := by
        intro k p e hp
        by_cases hk : k = s.next
        · subst hk; rw [upd_same] at e; exact absurd e.symm hp
        · rw [upd_ne _ _ hk] at e; exact ⟨e, hk⟩
      refine ⟨fun k hx hb => ?_, ?_, fun hn => ?_⟩ <;> dsimp only at *
      · obtain ⟨b, hk⟩ := back k _ hb (by decide)
        rw [upd_ne _ _ hk] at hx; exact h.after k hx b
      · rintro ⟨k, hx, hb⟩
        dsimp only at hx hb
        obtain ⟨b, hk⟩ := back k _ hb (by decide)
        rw [upd_ne _ _ hk] at hx
        rcases h.over ⟨k, hx, b⟩ with h1 | ⟨k2, h1, h2⟩
        · exact Or.inl h1
        · right
          have := key k2 (by intro e; rw [e] at h2; rcases h2 with h | h | h | h <;> cases h)
          exact ⟨k2, this.2.trans h1, by rw [this.1]; exact h2⟩
      · refine h.none (fun k hx => ?_)
        by_cases hk : s.pc k = .idle
        · rw [hk]; exact ⟨fun q => by unfold Busy at q; simp at q, by decide⟩
        · have := key k hk
          have q := hn k (this.2.trans hx)
          rw [this.1] at q; exact q
  | file k =>
    simp only [step, file]
    split
    · rename_i hk
      by_cases e : s.ex k = j
      · have hnk : ∀ k', s.pc k' ≠ .permitted → k' ≠ k := fun k' h' e' => h' (by rw [e']; exact hk)
        refine ⟨fun k' hx hb => ?_, fun _ => Or.inr ⟨k, e, ?_⟩, fun hn => ?_⟩
        · simp only [State.goto, State.list] at hb
          by_cases e' : k' = k
          · subst e'; rw [upd_same] at hb; cases hb
          · rw [upd_ne _ _ e'] at hb; exact h.after k' hx hb
        · exact Or.inl (upd_same ..)
        · exact absurd (Or.inl (upd_same ..)) (hn k e).1
      · exact (lost _ _ e).other (k := k) (p := .filed) e rfl rfl rfl (fun _ => rfl)
    · exact h
  | enter k =>
    simp only [step, enter]
    by_cases hk : s.pc k = .filed
    · rw [if_pos hk]
      by_cases hh : s.holder = none
      · rw [if_pos hh]; exact start k (Or.inl hk) (by rw [hk]; decide) (Or.inl hh)
      · rw [if_neg hh]; exact h.go (k := k) (p := .waiting) (Or.inl hk) (Or.inr (Or.inl rfl)) rfl rfl rfl (fun _ => rfl) (fun e => nomatch e)
    · rw [if_neg hk]; exact h
  | resume k =>
    simp only [step, resume]
    split
    · rename_i hk; exact start k (Or.inr (Or.inl hk.1)) (by rw [hk.1]; decide) (Or.inr hk.2)
    · exact h
  | finish k o =>
    have hkeep := keep (.finish k o)
    simp only [step, finish] at hkeep ⊢
    split
    · rename_i hk
      rw [if_pos hk] at hkeep
      exact h.go (k := k) (p := .after) (Or.inr (Or.inr (Or.inl hk.1))) (Or.inr (Or.inr (Or.inr rfl))) rfl rfl rfl hkeep (fun _ _ => hk.2)
    · exact h
  | update k =>
    simp only [step, update]
    split
    · rename_i hk
      by_cases e : s.ex k = j
      · have he := h.after k e hk
        have el : ((s.list (s.ex k) s.status).goto k .over).listed j = some s.status := by
          simp only [State.goto, State.list, e]; exact upd_same ..
        refine ⟨fun _ _ _ => he, fun _ => Or.inl ⟨he, el⟩, fun hn => ?_⟩
        exact absurd (show ((s.list (s.ex k) s.status).goto k .over).pc k = .over from upd_same ..) (hn k e).2
      · exact (lost _ _ e).other (k := k) (p := .over) e rfl rfl rfl (fun _ => rfl)
    · exact h
  | abort i =>
    simp only [step, abort]
    split
    · exact h
    · exact lost i _ hf
  | cancel k u =>
    have hkeep := keep (.cancel k u)
    have hne : s.ex k ≠ j := hf
    simp only [step, cancel] at hkeep ⊢
    cases hk : s.pc k with
    | idle => exact h
    | over => exact h
    | permitted => exact h.other hne (p := .over) rfl rfl rfl (fun _ => rfl)
    | filed => exact h.other hne (p := .over) rfl rfl rfl (fun _ => rfl)
    | after => exact h.other hne (p := .over) rfl rfl rfl (fun _ => rfl)
    | body =>
      simp only [hk] at hkeep
      exact h.other hne (p := afterCancel u) rfl rfl rfl hkeep
    | waiting =>
      dsimp only
      split
      · exact h.other hne (p := afterCancel u) rfl rfl rfl (fun _ => rfl)
      · exact h.other hne (p := afterCancel u) rfl rfl rfl (fun _ => rfl)

theorem run_lists {j : Nat} (h : List Act) : ∀ {s : State}, Inv s → Lists j s → Smooth j s h → Inv (run s h) ∧ Lists j (run s h) := by
  induction h with
  | nil => intro s hi hl _; exact ⟨hi, hl⟩
  | cons a h ih =>
    intro s hi hl hs
    have hf : Fair j s a ∧ Smooth j (step s a) h := by
      cases a <;> first | exact ⟨trivial, hs⟩ | exact hs
    exact ih (step_inv hi a) (step_lists hi hl a hf.1) hf.2

theorem init_lists (j : Nat) : Lists j {} := ⟨fun _ _ h => (nomatch h), fun ⟨_, _, h⟩ => (nomatch h), fun _ => Or.inl rfl⟩

/-- **C310.**  When nothing is going on any more, every executor that tried to run the event, none of whose attempts was cancelled and which did not abort it, lists the event under the status with which
it ended — whichever executor ran it and whatever the other executors did, including cancelling and aborting. -/
theorem C310_listed_partial (h : List Act) (j : Nat) (hs : Smooth j {} h) (hq : Quiet (run {} h)) (ht : Tried (run {} h) j) :
    Ended (run {} h).status ∧ (run {} h).listed j = some (run {} h).status := by
  have hl := (run_lists h init_inv (init_lists j) hs).2
  rcases hl.over ht with h' | ⟨k, _, hb⟩
  · exact h'
  · rcases hq k with e | e <;> rw [e] at hb <;> rcases hb with h | h | h | h <;> cases h

/-- **C310, exactly.**  Under the same conditions an executor that has the event lists it under the status of the event if and only if it has tried to run it, or the event is pending: an executor whose
turn has not come goes on listing it as pending. -/
theorem C310_exact_partial (h : List Act) (j : Nat) (hs : Smooth j {} h) (hq : Quiet (run {} h)) (hl : (run {} h).listed j ≠ none) :
    (run {} h).listed j = some (run {} h).status ↔ Tried (run {} h) j ∨ (run {} h).status = .pending := by
  have L := (run_lists h init_inv (init_lists j) hs).2
  by_cases ht : Tried (run {} h) j
  · exact ⟨fun _ => Or.inl ht, fun _ => (C310_listed_partial h j hs hq ht).2⟩
  · have hn : (run {} h).listed j = some .pending := by
      refine (L.none (fun k hx => ⟨fun hb => ?_, fun e => ht ⟨k, hx, e⟩⟩)).resolve_left hl
      rcases hq k with e | e <;> rw [e] at hb <;> rcases hb with h | h | h | h <;> cases h
    rw [hn]
    constructor
    · intro e; exact Or.inr (Option.some.inj e).symm
    · rintro (h | h)
      · exact absurd h ht
      · rw [h]

/-- Two executors; both processors take the event, the first runs it while the second waits. -/
def both : List Act := [.append 0, .append 1, .take 0, .take 1, .file 0, .file 1, .enter 0, .enter 1, .finish 0 .failed, .update 0, .resume 1, .update 1]

example : (run {} both).status = .failed ∧ (run {} both).runs = 1 ∧ (run {} both).listed 0 = some .failed ∧ (run {} both).listed 1 = some .failed ∧ Smooth 0 {} both ∧ Smooth 1 {} both ∧
    Tried (run {} both) 0 ∧ Tried (run {} both) 1 := by
  refine ⟨by decide, by decide, by decide, by decide, ?_, ?_, ⟨0, by decide, by decide⟩, ⟨1, by decide, by decide⟩⟩ <;> simp [both, Smooth]

/-- **C310 fails in general**: an executor lists an event as pending that has ended in another one; one whose `process()` call is cancelled while the event runs elsewhere lists it as processing
for good; one that gave up after three denials lists as aborted an event that another one completed. -/
theorem C310_violation :
    ((run {} [.append 0, .append 1, .take 0, .file 0, .enter 0, .finish 0 .completed, .update 0]).status = .completed ∧
      (run {} [.append 0, .append 1, .take 0, .file 0, .enter 0, .finish 0 .completed, .update 0]).listed 1 = some .pending) ∧
    (∀ u, (run {} [.append 0, .append 1, .take 0, .take 1, .file 0, .file 1, .enter 0, .enter 1, .cancel 1 u, .update 1, .finish 0 .completed, .update 0]).status = .completed ∧
      (run {} [.append 0, .append 1, .take 0, .take 1, .file 0, .file 1, .enter 0, .enter 1, .cancel 1 u, .update 1, .finish 0 .completed, .update 0]).listed 1 = some .processing) ∧
    ((run {} [.append 0, .append 1, .abort 1, .take 0, .file 0, .enter 0, .finish 0 .completed, .update 0]).status = .completed ∧
      (run {} [.append 0, .append 1, .abort 1, .take 0, .file 0, .enter 0, .finish 0 .completed, .update 0]).listed 1 = some .aborted) := by
  refine ⟨by decide, ?_, by decide⟩
  intro u; cases u <;> decide

end Verif.EventShare
