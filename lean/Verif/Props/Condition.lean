import Verif.Model.Condition

/-! # C311, C312, C313: the lock and the condition variable -/

set_option linter.unusedSimpArgs false
set_option linter.unusedVariables false

namespace Verif.Condition

theorem upd_same (g : Nat → PC) (t : Nat) (p : PC) : upd g t p t = p := by simp [upd]
theorem upd_ne (g : Nat → PC) {t i : Nat} (p : PC) (h : i ≠ t) : upd g t p i = g i := by simp [upd, h]

/-! ## Specification -/

/-- The task an event is about. -/
def about : Ev → Nat
  | .slept t => t
  | .notified t => t
  | .cancelled t => t
  | .returned t => t
  | .raised t => t

/-- The last thing that happened to a task. -/
def lastOf (t : Nat) (log : List Ev) : Option Ev := (log.filter (fun v => about v == t)).getLast?

/-- Who sleeps, one event later. -/
def sleepStep (l : List Nat) : Ev → List Nat
  | .slept t => l ++ [t]
  | .notified t => l.erase t
  | .cancelled t => l.erase t
  | _ => l

/-- The tasks in `wait` that were neither notified nor cancelled, longest first. -/
def sleepers (log : List Ev) : List Nat := log.foldl sleepStep []

/-- What may happen to a task after what happened to it last. -/
def Follows : Option Ev → Ev → Prop
  | l, .slept t => l = none ∨ l = some (.returned t) ∨ l = some (.raised t)
  | l, .notified t => l = some (.slept t)
  | l, .cancelled t => l = some (.slept t) ∨ l = some (.notified t)
  | l, .returned t => l = some (.notified t)
  | l, .raised t => l = some (.cancelled t)

/-- The task is in line for the lock, or was just given it. -/
def wants : PC → Bool
  | .queued => true
  | .back _ => true
  | _ => false

/-! ## The lock -/

structure LInv (h : Option Nat) (q : List Nat) (pc : Nat → PC) : Prop where
  ins : ∀ t, pc t = .inside → h = some t
  idle : h = none → q = []
  line : ∀ t, wants (pc t) = true ↔ t ∈ q ∨ (h = some t ∧ pc t ≠ .inside)
  nodup : q.Nodup
  apart : ∀ t, h = some t → t ∉ q

theorem LInv.give {h : Option Nat} {q : List Nat} {pc : Nat → PC} (L : LInv h q pc) {t : Nat} (ht : h = some t) {p : PC} (hp : wants p = false) (hi : p ≠ .inside) : LInv q.head? q.tail (upd pc t p) := by
  have htq := L.apart t ht
  have hin : ∀ i, i ≠ t → pc i ≠ .inside := fun i hne e => hne (by have := L.ins i e; rw [ht] at this; exact (Option.some.inj this).symm)
  cases q with
  | nil =>
    refine ⟨fun i e => ?_, fun _ => rfl, fun i => ?_, List.nodup_nil, fun i e => (nomatch e)⟩
    · by_cases h' : i = t
      · subst h'; rw [upd_same] at e; exact absurd e hi
      · rw [upd_ne _ _ h'] at e; exact absurd e (hin i h')
    · by_cases h' : i = t
      · subst h'; rw [upd_same, hp]; simp
      · rw [upd_ne _ _ h', L.line i, ht]
        simp only [List.not_mem_nil, false_or, List.tail_nil, List.head?_nil]
        constructor
        · rintro ⟨e, _⟩; exact absurd (Option.some.inj e).symm h'
        · rintro ⟨e, _⟩; cases e
  | cons a q =>
    have hat : a ≠ t := fun e => htq (by rw [e]; exact List.mem_cons_self ..)
    have nd := List.nodup_cons.mp L.nodup
    refine ⟨fun i e => ?_, fun e => (nomatch e), fun i => ?_, nd.2, fun i e => ?_⟩
    · by_cases h' : i = t
      · subst h'; rw [upd_same] at e; exact absurd e hi
      · rw [upd_ne _ _ h'] at e; exact absurd e (hin i h')
    · by_cases h' : i = t
      · subst h'; rw [upd_same, hp]
        simp only [Bool.false_eq_true, List.tail_cons, List.head?_cons, Option.some.injEq, false_iff, not_or]
        exact ⟨fun e => htq (List.mem_cons_of_mem _ e), fun e => hat e.1⟩
      · rw [upd_ne _ _ h', L.line i, ht]
        simp only [List.mem_cons, List.tail_cons, List.head?_cons, Option.some.injEq]
        constructor
        · rintro ((e | e) | ⟨e, _⟩)
          · exact Or.inr ⟨e.symm, hin i h'⟩
          · exact Or.inl e
          · exact absurd e.symm h'
        · rintro (e | ⟨e, _⟩)
          · exact Or.inl (Or.inr e)
          · exact Or.inl (Or.inl e.symm)
    · simp only [List.head?_cons, Option.some.injEq] at e
      rw [List.tail_cons, ← e]; exact nd.1

theorem LInv.take {pc : Nat → PC} (L : LInv none [] pc) (t : Nat) : LInv (some t) [] (upd pc t .inside) := by
  have hn : ∀ i, wants (pc i) = false := by
    intro i
    cases e : wants (pc i) with
    | false => rfl
    | true => rcases (L.line i).1 e with h | ⟨h, _⟩ <;> cases h
  refine ⟨fun i e => ?_, fun e => (nomatch e), fun i => ?_, List.nodup_nil, fun _ _ h => (nomatch h)⟩
  · by_cases h' : i = t
    · subst h'; rfl
    · rw [upd_ne _ _ h'] at e; exact absurd (L.ins i e) (by simp)
  · by_cases h' : i = t
    · subst h'; rw [upd_same]; simp [wants]
    · rw [upd_ne _ _ h', hn i]; simp; intro e; exact absurd e.symm h'

theorem LInv.join {h : Option Nat} {q : List Nat} {pc : Nat → PC} (L : LInv h q pc) {t : Nat} (hf : ¬ (h = none ∧ q = [])) (ht : wants (pc t) = false) (hi : pc t ≠ .inside) {p : PC} (hp : wants p = true) :
    LInv h (q ++ [t]) (upd pc t p) := by
  have hpi : p ≠ .inside := by rintro rfl; cases hp
  have hno : t ∉ q ∧ h ≠ some t := by
    have := (not_congr (L.line t)).1 (by rw [ht]; decide)
    exact ⟨fun e => this (Or.inl e), fun e => this (Or.inr ⟨e, hi⟩)⟩
  refine ⟨fun i e => ?_, fun e => absurd ⟨e, L.idle e⟩ hf, fun i => ?_, ?_, fun i e => ?_⟩
  · by_cases h' : i = t
    · subst h'; rw [upd_same] at e; exact absurd e hpi
    · rw [upd_ne _ _ h'] at e; exact L.ins i e
  · by_cases h' : i = t
    · subst h'; rw [upd_same, hp]; simp
    · rw [upd_ne _ _ h', L.line i]; simp [h']
  · rw [List.nodup_append]
    exact ⟨L.nodup, by simp, fun a ha b hb => by rw [List.mem_singleton] at hb; rw [hb]; intro e; exact hno.1 (e ▸ ha)⟩
  · rw [List.mem_append, List.mem_singleton]
    rintro (h' | h')
    · exact L.apart i e h'
    · exact hno.2 (h' ▸ e)

theorem LInv.resume {t : Nat} {q : List Nat} {pc : Nat → PC} (L : LInv (some t) q pc) : LInv (some t) q (upd pc t .inside) := by
  refine ⟨fun i e => ?_, fun e => (nomatch e), fun i => ?_, L.nodup, L.apart⟩
  · by_cases h' : i = t
    · subst h'; rfl
    · rw [upd_ne _ _ h'] at e; exact L.ins i e
  · by_cases h' : i = t
    · subst h'; rw [upd_same]; simp [wants, L.apart i rfl]
    · rw [upd_ne _ _ h', L.line i]

theorem LInv.quit {h : Option Nat} {q : List Nat} {pc : Nat → PC} (L : LInv h q pc) {t : Nat} (ht : h ≠ some t) {p : PC} (hp : wants p = false) (hi : p ≠ .inside) : LInv h (q.erase t) (upd pc t p) := by
  refine ⟨fun i e => ?_, fun e => by rw [L.idle e]; rfl, fun i => ?_, L.nodup.erase t, fun i e h' => L.apart i e (List.mem_of_mem_erase h')⟩
  · by_cases h' : i = t
    · subst h'; rw [upd_same] at e; exact absurd e hi
    · rw [upd_ne _ _ h'] at e; exact L.ins i e
  · by_cases h' : i = t
    · subst h'; rw [upd_same, hp]; simp [ht, L.nodup.mem_erase_iff]
    · rw [upd_ne _ _ h', L.line i, List.mem_erase_of_ne h']

theorem LInv.aside {h : Option Nat} {q : List Nat} {pc : Nat → PC} (L : LInv h q pc) {t : Nat} (h1 : wants (pc t) = false) (h2 : pc t ≠ .inside) {p : PC} (hp : wants p = false) (hi : p ≠ .inside) :
    LInv h q (upd pc t p) := by
  have hno := (not_congr (L.line t)).1 (by rw [h1]; decide)
  refine ⟨fun i e => ?_, L.idle, fun i => ?_, L.nodup, L.apart⟩
  · by_cases h' : i = t
    · subst h'; rw [upd_same] at e; exact absurd e hi
    · rw [upd_ne _ _ h'] at e; exact L.ins i e
  · by_cases h' : i = t
    · subst h'; rw [upd_same, hp]
      simp only [Bool.false_eq_true, false_iff, not_or, not_and]
      exact ⟨fun e => hno (Or.inl e), fun e _ => hno (Or.inr ⟨e, h2⟩)⟩
    · rw [upd_ne _ _ h', L.line i]

/-! ## The waits -/

theorem lastOf_same (t : Nat) (log : List Ev) {v : Ev} (h : about v = t) : lastOf t (log ++ [v]) = some v := by
  simp [lastOf, List.filter_append, h]
theorem lastOf_ne (t : Nat) (log : List Ev) {v : Ev} (h : about v ≠ t) : lastOf t (log ++ [v]) = lastOf t log := by
  simp [lastOf, List.filter_append, h]
theorem sleepers_snoc (log : List Ev) (v : Ev) : sleepers (log ++ [v]) = sleepStep (sleepers log) v := by
  simp [sleepers, List.foldl_append]

/-- What the place of a task says about what happened to it last. -/
def Fits (t : Nat) : PC → Option Ev → Prop
  | .asleep, l => l = some (.slept t)
  | .woken, l => l = some (.notified t)
  | .back true, l => l = some (.notified t)
  | .back false, l => l = some (.cancelled t)
  | _, l => l = none ∨ l = some (.returned t) ∨ l = some (.raised t)

structure CInv (w : List Nat) (log : List Ev) (pc : Nat → PC) : Prop where
  mem : ∀ t, t ∈ w ↔ pc t = .asleep
  nodup : w.Nodup
  seq : w = sleepers log
  fits : ∀ t, Fits t (pc t) (lastOf t log)
  order : ∀ q v r, log = q ++ v :: r → Follows (lastOf (about v) q) v

theorem order_snoc {log : List Ev} {v : Ev} (h : ∀ q v r, log = q ++ v :: r → Follows (lastOf (about v) q) v) (hv : Follows (lastOf (about v) log) v) :
    ∀ q u r, log ++ [v] = q ++ u :: r → Follows (lastOf (about u) q) u := by
  intro q u r e
  rcases List.eq_nil_or_concat r with rfl | ⟨r', x, rfl⟩
  · have := List.append_inj' e rfl
    obtain ⟨e1, e2⟩ := this
    cases e2; rw [← e1]; exact hv
  · have e' : log ++ [v] = (q ++ u :: r') ++ [x] := by rw [e]; simp
    have := (List.append_inj' e' rfl).1
    exact h q u r' this

/-- One event about `t`, which goes to another place. -/
theorem CInv.event {w : List Nat} {log : List Ev} {pc : Nat → PC} (C : CInv w log pc) {t : Nat} {v : Ev} {p : PC} {w' : List Nat} (hv : about v = t) (hf : Follows (lastOf t log) v) (hp : Fits t p (some v))
    (hm : t ∈ w' ↔ p = .asleep) (hm' : ∀ i, i ≠ t → (i ∈ w' ↔ i ∈ w)) (hn : w'.Nodup) (hs : w' = sleepStep w v) : CInv w' (log ++ [v]) (upd pc t p) := by
  refine ⟨fun i => ?_, hn, by rw [sleepers_snoc, ← C.seq]; exact hs, fun i => ?_, order_snoc C.order (by rw [hv]; exact hf)⟩
  · by_cases h' : i = t
    · subst h'; rw [upd_same]; exact hm
    · rw [upd_ne _ _ h', hm' i h']; exact C.mem i
  · by_cases h' : i = t
    · subst h'; rw [upd_same, lastOf_same i log hv]; exact hp
    · rw [upd_ne _ _ h', lastOf_ne i log (by rw [hv]; exact Ne.symm h')]; exact C.fits i

/-- Nothing is seen; the task goes to another place. -/
theorem CInv.move {w : List Nat} {log : List Ev} {pc : Nat → PC} (C : CInv w log pc) {t : Nat} {p : PC} (h1 : pc t ≠ .asleep) (h2 : p ≠ .asleep) (hp : Fits t p (lastOf t log)) : CInv w log (upd pc t p) := by
  refine ⟨fun i => ?_, C.nodup, C.seq, fun i => ?_, C.order⟩
  · by_cases h' : i = t
    · subst h'; rw [upd_same, C.mem i]; exact ⟨fun e => absurd e h1, fun e => absurd e h2⟩
    · rw [upd_ne _ _ h']; exact C.mem i
  · by_cases h' : i = t
    · subst h'; rw [upd_same]; exact hp
    · rw [upd_ne _ _ h']; exact C.fits i

structure Inv (s : State) : Prop where
  lock : LInv s.holder s.queue s.pc
  cond : CInv s.waiters s.log s.pc

theorem ending_about (t : Nat) (ok : Bool) : about (ending t ok) = t := by cases ok <;> rfl
theorem ending_fits (t : Nat) (ok : Bool) : Fits t .inside (some (ending t ok)) := by cases ok <;> simp [ending, Fits]
theorem ending_sleep (t : Nat) (ok : Bool) (w : List Nat) : sleepStep w (ending t ok) = w := by cases ok <;> rfl

/-- What happened last to a task whose wait ends well, or not. -/
def ready (t : Nat) (ok : Bool) : Ev := if ok then .notified t else .cancelled t
theorem ending_follows (t : Nat) (ok : Bool) : Follows (some (ready t ok)) (ending t ok) := by cases ok <;> simp [ready, ending, Follows]
theorem back_fits (t : Nat) (ok : Bool) : Fits t (.back ok) (some (ready t ok)) := by cases ok <;> simp [ready, Fits]

theorem rejoin_inv {s : State} (L : LInv s.holder s.queue s.pc) {t : Nat} {ok : Bool} (h1 : wants (s.pc t) = false) (h2 : s.pc t ≠ .inside)
    (hl : lastOf t s.log = some (ready t ok)) (C' : CInv s.waiters s.log (upd s.pc t (.back ok))) :
    Inv (rejoin s t ok) := by
  have hn : t ∉ s.waiters := by
    intro e; have := (C'.mem t).1 e; rw [upd_same] at this; cases this
  unfold rejoin
  split
  · rename_i hf
    refine ⟨?_, ?_⟩
    · have L' := L
      rw [hf.1, hf.2] at L'
      have := L'.take t
      simp only [State.goto, hf.2]; exact this
    · have := C'.event (t := t) (v := ending t ok) (p := .inside) (w' := s.waiters) (ending_about t ok) (by rw [hl]; exact ending_follows t ok) (ending_fits t ok) (by simp [hn]) (fun _ _ => Iff.rfl) C'.nodup
        (ending_sleep t ok _).symm
      have e : upd (upd s.pc t (.back ok)) t .inside = upd s.pc t .inside := by
        funext i; by_cases h' : i = t
        · subst h'; simp [upd]
        · simp [upd, h']
      rw [e] at this
      exact this
  · rename_i hf
    exact ⟨L.join hf h1 h2 (p := .back ok) rfl, C'⟩

theorem notifyOne_inv {s : State} (h : Inv s) : Inv (notifyOne s) := by
  unfold notifyOne
  split
  · exact h
  · rename_i w ws e
    have hw : s.pc w = .asleep := (h.cond.mem w).1 (by rw [e]; exact List.mem_cons_self ..)
    have nd := h.cond.nodup
    rw [e] at nd
    have nd := List.nodup_cons.mp nd
    refine ⟨?_, ?_⟩
    · exact h.lock.aside (by rw [hw]; rfl) (by rw [hw]; decide) (p := .woken) rfl (by decide)
    · show CInv ws (s.log ++ [.notified w]) (upd s.pc w .woken)
      refine h.cond.event (t := w) (p := .woken) rfl ?_ rfl ?_ ?_ nd.2 ?_
      · have := h.cond.fits w; rw [hw] at this; exact this
      · simp [nd.1]
      · intro i hi; rw [e]; simp [hi]
      · rw [e]; simp [sleepStep]

theorem notifyN_inv : ∀ (n : Nat) {s : State}, Inv s → Inv (notifyN n s)
  | 0, _, h => h
  | n + 1, s, h => notifyN_inv n (notifyOne_inv h)

theorem step_inv {s : State} (h : Inv s) (op : Op) : Inv (step s op).1 := by
  have hnot : ∀ t n, Inv (notify s t n).1 := by
    intro t n
    simp only [notify]
    cases hp : s.pc t with
    | inside => exact notifyN_inv n h
    | _ => exact h
  cases op with
  | acquire t =>
    simp only [step, acquire]
    cases hp : s.pc t with
    | out =>
      have hfit := h.cond.fits t
      rw [hp] at hfit
      dsimp only
      by_cases hf : s.free
      · rw [if_pos hf]
        refine ⟨?_, h.cond.move (by rw [hp]; decide) (by decide) hfit⟩
        have L := h.lock
        rw [hf.1, hf.2] at L
        simp only [State.goto, hf.2]; exact L.take t
      · rw [if_neg hf]
        exact ⟨h.lock.join hf (by rw [hp]; rfl) (by rw [hp]; decide) (p := .queued) rfl, h.cond.move (by rw [hp]; decide) (by decide) hfit⟩
    | _ => exact h
  | release t =>
    simp only [step, release]
    cases hp : s.pc t with
    | inside =>
      have hfit := h.cond.fits t
      rw [hp] at hfit
      exact ⟨h.lock.give (h.lock.ins t hp) (p := .out) rfl (by decide), h.cond.move (by rw [hp]; decide) (by decide) hfit⟩
    | _ => exact h
  | wait t =>
    simp only [step, wait]
    cases hp : s.pc t with
    | inside =>
      have hfit := h.cond.fits t
      rw [hp] at hfit
      have hn : t ∉ s.waiters := fun e => by have := (h.cond.mem t).1 e; rw [hp] at this; cases this
      refine ⟨h.lock.give (h.lock.ins t hp) (p := .asleep) rfl (by decide), ?_⟩
      show CInv (s.waiters ++ [t]) (s.log ++ [.slept t]) (upd s.pc t .asleep)
      refine h.cond.event (t := t) (p := .asleep) rfl hfit rfl (by simp) (fun i hi => by simp [hi]) ?_ rfl
      rw [List.nodup_append]
      exact ⟨h.cond.nodup, by simp, fun a ha b hb => by rw [List.mem_singleton] at hb; rw [hb]; intro e; exact hn (e ▸ ha)⟩
    | _ => exact h
  | notify t n => exact hnot t n
  | notifyAll t => exact hnot t _
  | wake t =>
    simp only [step, wake]
    split
    · rename_i hp
      have hfit := h.cond.fits t
      rw [hp] at hfit
      have C := h.cond.move (p := .back true) (by rw [hp]; decide) (by decide) hfit
      exact rejoin_inv h.lock (by rw [hp]; rfl) (by rw [hp]; decide) hfit C
    · exact h
  | resume t =>
    simp only [step, resume]
    split
    · rename_i hh
      have L := h.lock
      rw [hh] at L
      have hfit := h.cond.fits t
      cases hp : s.pc t with
      | queued =>
        rw [hp] at hfit
        refine ⟨?_, h.cond.move (by rw [hp]; decide) (by decide) hfit⟩
        simp only [goOn, State.goto, hh]; exact L.resume
      | back ok =>
        rw [hp] at hfit
        have hl : lastOf t s.log = some (ready t ok) := by cases ok <;> exact hfit
        have hn : t ∉ s.waiters := fun e => by have := (h.cond.mem t).1 e; rw [hp] at this; cases this
        refine ⟨?_, ?_⟩
        · simp only [goOn, State.goto, hh]; exact L.resume
        · show CInv s.waiters (s.log ++ [ending t ok]) (upd s.pc t .inside)
          exact h.cond.event (t := t) (v := ending t ok) (p := .inside) (ending_about t ok) (by rw [hl]; exact ending_follows t ok) (ending_fits t ok) (by simp [hn]) (fun _ _ => Iff.rfl) h.cond.nodup (ending_sleep t ok _).symm
      | _ => exact h
    · exact h
  | cancel t =>
    simp only [step, cancel]
    have hfit := h.cond.fits t
    cases hp : s.pc t with
    | queued =>
      rw [hp] at hfit
      dsimp only
      by_cases hh : s.holder = some t
      · rw [if_pos hh]
        exact ⟨h.lock.give hh (p := .out) rfl (by decide), h.cond.move (by rw [hp]; decide) (by decide) hfit⟩
      · rw [if_neg hh]
        exact ⟨h.lock.quit hh (p := .out) rfl (by decide), h.cond.move (by rw [hp]; decide) (by decide) hfit⟩
    | asleep =>
      rw [hp] at hfit
      have C : CInv (s.waiters.erase t) (s.log ++ [.cancelled t]) (upd s.pc t (.back false)) := by
        refine h.cond.event (t := t) (p := .back false) rfl (Or.inl hfit) rfl ?_ (fun i hi => List.mem_erase_of_ne hi) (h.cond.nodup.erase t) rfl
        simp [h.cond.nodup.mem_erase_iff]
      exact rejoin_inv (s := { s with waiters := s.waiters.erase t, log := s.log ++ [.cancelled t] }) h.lock (by dsimp only; rw [hp]; rfl) (by dsimp only; rw [hp]; decide) (lastOf_same t _ rfl) C
    | woken =>
      rw [hp] at hfit
      have hn : t ∉ s.waiters := fun e => by have := (h.cond.mem t).1 e; rw [hp] at this; cases this
      have C : CInv s.waiters (s.log ++ [.cancelled t]) (upd s.pc t (.back false)) :=
        h.cond.event (t := t) (p := .back false) rfl (Or.inr hfit) rfl (by simp [hn]) (fun _ _ => Iff.rfl) h.cond.nodup (List.erase_of_not_mem hn).symm
      exact rejoin_inv (s := { s with log := s.log ++ [.cancelled t] }) h.lock (by dsimp only; rw [hp]; rfl) (by dsimp only; rw [hp]; decide) (lastOf_same t _ rfl) C
    | _ => exact h

theorem init_inv : Inv {} :=
  ⟨⟨fun _ h => (nomatch h), fun _ => rfl, fun t => by simp [wants], List.nodup_nil, fun _ h => (nomatch h)⟩,
   ⟨fun t => by simp, List.nodup_nil, rfl, fun t => Or.inl rfl, fun q v r h => by cases q <;> cases h⟩⟩

theorem run_inv (h : List Op) : ∀ {s : State}, Inv s → Inv (run s h) := by
  induction h with
  | nil => intro s hs; exact hs
  | cons a h ih => intro s hs; exact ih (step_inv hs a)

/-! ## C311 -/

/-- **C311.**  At any time at most one task holds the lock. -/
theorem C311_exclusive (h : List Op) (t u : Nat) (ht : (run {} h).pc t = .inside) (hu : (run {} h).pc u = .inside) : t = u := by
  have L := (run_inv h init_inv).lock
  have := (L.ins t ht).symm.trans (L.ins u hu)
  exact Option.some.inj this

/-- **C311.**  While a task is in line, the lock is never left lying: a task holds it, or was given it and goes on as soon as it runs. -/
theorem C311_progress (h : List Op) (t : Nat) (ht : wants ((run {} h).pc t) = true) :
    ∃ u, (run {} h).pc u = .inside ∨ (run {} (h ++ [.resume u])).pc u = .inside := by
  have L := (run_inv h init_inv).lock
  have e : ∀ u, run {} (h ++ [.resume u]) = resume (run {} h) u := fun u => by simp [run, List.foldl_append, step]
  cases hh : (run {} h).holder with
  | none =>
    rcases (L.line t).1 ht with h' | ⟨h', _⟩
    · rw [L.idle hh] at h'; cases h'
    · rw [hh] at h'; cases h'
  | some u =>
    refine ⟨u, ?_⟩
    by_cases hi : (run {} h).pc u = .inside
    · exact Or.inl hi
    · right
      have hw := (L.line u).2 (Or.inr ⟨hh, hi⟩)
      rw [e]
      simp only [resume, hh, if_true]
      cases hp : (run {} h).pc u with
      | queued => exact upd_same ..
      | back ok => exact upd_same ..
      | _ => rw [hp] at hw; cases hw

theorem notifyOne_frame (s : State) : (notifyOne s).holder = s.holder ∧ (notifyOne s).queue = s.queue := by
  unfold notifyOne; split <;> exact ⟨rfl, rfl⟩
theorem notifyN_frame : ∀ (n : Nat) (s : State), (notifyN n s).holder = s.holder ∧ (notifyN n s).queue = s.queue
  | 0, s => ⟨rfl, rfl⟩
  | n + 1, s => by
    have a := notifyN_frame n (notifyOne s)
    have b := notifyOne_frame s
    exact ⟨a.1.trans b.1, a.2.trans b.2⟩

/-- How the line for the lock changes: not at all; a task that was not in line joins at the end; the first one is given the lock; a cancelled task leaves. -/
def LineStep (s s' : State) (op : Op) : Prop :=
  (s'.queue = s.queue ∧ (s'.holder = s.holder ∨ s.queue = [])) ∨
  (∃ t, wants (s.pc t) = false ∧ s'.queue = s.queue ++ [t] ∧ s'.holder = s.holder) ∨
  (∃ t, s.queue = t :: s'.queue ∧ s'.holder = some t) ∨
  (∃ t, op = .cancel t ∧ s'.queue = s.queue.erase t ∧ s'.holder = s.holder)

theorem give_line (s s' : State) (op : Op) (h1 : s'.queue = s.queue.tail) (h2 : s'.holder = s.queue.head?) : LineStep s s' op := by
  cases hq : s.queue with
  | nil => rw [hq] at h1; exact Or.inl ⟨by rw [h1, hq]; rfl, Or.inr hq⟩
  | cons a q => rw [hq] at h1 h2; exact Or.inr (Or.inr (Or.inl ⟨a, by rw [h1, hq]; rfl, h2⟩))

theorem rejoin_line (s : State) (t : Nat) (ok : Bool) (w : List Nat) (l : List Ev) (op : Op) (ht : wants (s.pc t) = false) : LineStep s (rejoin { s with waiters := w, log := l } t ok) op := by
  unfold rejoin
  split
  · rename_i hf; exact Or.inl ⟨rfl, Or.inr hf.2⟩
  · exact Or.inr (Or.inl ⟨t, ht, rfl, rfl⟩)

/-- **C311.**  The lock is given in turn: tasks join the line at the end, the lock passes from its holder to the first in line, and a task leaves the line only by getting the lock or by being
cancelled. -/
theorem C311_turn (s : State) (op : Op) : LineStep s (step s op).1 op := by
  have stay : LineStep s s op := Or.inl ⟨rfl, Or.inl rfl⟩
  have hnot : ∀ t n, LineStep s (notify s t n).1 op := by
    intro t n
    simp only [notify]
    cases hp : s.pc t with
    | inside => exact Or.inl ⟨(notifyN_frame n s).2, Or.inl (notifyN_frame n s).1⟩
    | _ => exact stay
  cases op with
  | acquire t =>
    simp only [step, acquire]
    cases hp : s.pc t with
    | out =>
      dsimp only
      by_cases hf : s.free
      · rw [if_pos hf]; exact Or.inl ⟨rfl, Or.inr hf.2⟩
      · rw [if_neg hf]; exact Or.inr (Or.inl ⟨t, by rw [hp]; rfl, rfl, rfl⟩)
    | _ => exact stay
  | release t =>
    simp only [step, release]
    cases hp : s.pc t with
    | inside => exact give_line s _ _ rfl rfl
    | _ => exact stay
  | wait t =>
    simp only [step, wait]
    cases hp : s.pc t with
    | inside => exact give_line s _ _ rfl rfl
    | _ => exact stay
  | notify t n => exact hnot t n
  | notifyAll t => exact hnot t _
  | wake t =>
    simp only [step, wake]
    split
    · rename_i hp; exact rejoin_line s t true s.waiters s.log _ (by rw [hp]; rfl)
    · exact stay
  | resume t =>
    simp only [step, resume]
    split
    · cases hp : s.pc t <;> exact Or.inl ⟨rfl, Or.inl rfl⟩
    · exact stay
  | cancel t =>
    simp only [step, cancel]
    cases hp : s.pc t with
    | queued =>
      dsimp only
      by_cases hh : s.holder = some t
      · rw [if_pos hh]; exact give_line s _ _ rfl rfl
      · rw [if_neg hh]; exact Or.inr (Or.inr (Or.inr ⟨t, rfl, rfl, rfl⟩))
    | asleep => exact rejoin_line s t false _ _ _ (by rw [hp]; rfl)
    | woken => exact rejoin_line s t false s.waiters _ _ (by rw [hp]; rfl)
    | _ => exact stay

/-- **C311.**  A task that holds the lock gets RuntimeError from `acquire`; one that neither holds it nor waits gets RuntimeError from `release` and `notify`; nothing changes then, and there are
no other exceptions. -/
theorem C311_errors (s : State) (t n : Nat) :
    (step s (.acquire t) = (s, .error .runtimeError) ↔ s.pc t = .inside) ∧ ((step s (.acquire t)).2 = .ok () ↔ s.pc t ≠ .inside) ∧
    (step s (.release t) = (s, .error .runtimeError) ↔ s.pc t = .out) ∧ ((step s (.release t)).2 = .ok () ↔ s.pc t ≠ .out) ∧
    (step s (.notify t n) = (s, .error .runtimeError) ↔ s.pc t = .out) ∧ ((step s (.notify t n)).2 = .ok () ↔ s.pc t ≠ .out) := by
  simp only [step, acquire, release, notify]
  cases hp : s.pc t <;> simp

/-! ## C312 -/

theorem notifyN_log : ∀ (n : Nat) (s : State), (notifyN n s).log = s.log ++ (s.waiters.take n).map .notified
  | 0, s => by simp [notifyN]
  | n + 1, s => by
    simp only [notifyN]
    rw [notifyN_log n]
    unfold notifyOne
    split
    · rename_i e; simp [e]
    · rename_i w ws e; simp [State.goto, e]

theorem run_snoc (s : State) (h : List Op) (op : Op) : run s (h ++ [op]) = (step (run s h) op).1 := by simp [run, List.foldl_append]

/-- **C312.**  `notify(n)` by the holder of the lock wakes exactly the `n` tasks that have slept longest (all of them if there are fewer), `notify_all` all of them. -/
theorem C312_notify (h : List Op) (t n : Nat) (ht : (run {} h).pc t = .inside) :
    (run {} (h ++ [.notify t n])).log = (run {} h).log ++ ((sleepers (run {} h).log).take n).map .notified ∧
    (run {} (h ++ [.notifyAll t])).log = (run {} h).log ++ (sleepers (run {} h).log).map .notified := by
  have C := (run_inv h init_inv).cond
  rw [run_snoc, run_snoc]
  simp only [step, notify, ht]
  rw [notifyN_log, notifyN_log, ← C.seq, List.take_length]
  exact ⟨rfl, rfl⟩

/-- **C312.**  A wait returns only if the task was notified during this very wait, and was not cancelled before it ran; it raises only if it was cancelled; only a sleeping task is notified. -/
theorem C312_cause (h : List Op) (t : Nat) (q r : List Ev) :
    ((run {} h).log = q ++ .returned t :: r → lastOf t q = some (.notified t)) ∧
    ((run {} h).log = q ++ .raised t :: r → lastOf t q = some (.cancelled t)) ∧
    ((run {} h).log = q ++ .notified t :: r → lastOf t q = some (.slept t)) ∧
    ((run {} h).log = q ++ .cancelled t :: r → lastOf t q = some (.slept t) ∨ lastOf t q = some (.notified t)) := by
  have C := (run_inv h init_inv).cond
  exact ⟨fun e => C.order q _ r e, fun e => C.order q _ r e, fun e => C.order q _ r e, fun e => C.order q _ r e⟩

theorem rejoin_ends {s : State} {t u : Nat} {ok : Bool} {v : Ev} (hv : v = .returned u ∨ v = .raised u) (hm : v ∈ (rejoin s t ok).log) (hn : v ∉ s.log) : (rejoin s t ok).holder = some u ∧ (rejoin s t ok).pc u = .inside := by
  unfold rejoin at hm ⊢
  by_cases hf : s.free
  · rw [if_pos hf] at hm ⊢
    rcases List.mem_append.mp hm with hm | hm
    · exact absurd hm hn
    · rw [List.mem_singleton] at hm
      have : u = t := by
        have := congrArg about hm
        rw [ending_about] at this
        rcases hv with rfl | rfl <;> exact this
      subst this
      exact ⟨rfl, upd_same ..⟩
  · rw [if_neg hf] at hm; exact absurd hm hn

/-- **C312.**  However a wait ends, when it ends the task holds the lock: in every step in which a wait returns or raises, that task holds the lock afterwards. -/
theorem C312_locked (h : List Op) (op : Op) (u : Nat) (l : List Ev) (hl : (run {} (h ++ [op])).log = (run {} h).log ++ l) (hu : .returned u ∈ l ∨ .raised u ∈ l) :
    (run {} (h ++ [op])).pc u = .inside ∧ (run {} (h ++ [op])).holder = some u := by
  suffices hs : (run {} (h ++ [op])).pc u = .inside from ⟨hs, (run_inv (h ++ [op]) init_inv).lock.ins u hs⟩
  rw [run_snoc] at hl ⊢
  generalize run {} h = s at *
  have none : ∀ l', l = l' → (.returned u ∉ l' ∧ .raised u ∉ l') → False := by
    rintro l' rfl ⟨h1, h2⟩; rcases hu with h | h
    · exact h1 h
    · exact h2 h
  have same : (step s op).1.log = s.log → False := by
    intro e; rw [e] at hl; exact none [] (by simpa using hl.symm) (by simp)
  have more : ∀ l', (step s op).1.log = s.log ++ l' → l = l' := by
    intro l' e; rw [e] at hl; exact (List.append_cancel_left hl).symm
  have hnot : ∀ t n, (step s op).1 = (notify s t n).1 → False := by
    intro t n e
    simp only [notify] at e
    cases hp : s.pc t with
    | inside =>
      rw [hp] at e
      refine none _ (more _ (by rw [e]; exact notifyN_log n s)) ⟨?_, ?_⟩ <;>
        (intro h'; obtain ⟨_, _, h''⟩ := List.mem_map.mp h'; cases h'')
    | _ => rw [hp] at e; exact same (by rw [e])
  have rj : ∀ t ok pre, (∀ v ∈ pre, v = .cancelled t) → ∀ w, (step s op).1 = rejoin { s with waiters := w, log := s.log ++ pre } t ok → (step s op).1.pc u = .inside := by
    intro t ok pre hpre w e
    rw [e] at hl ⊢
    unfold rejoin at hl ⊢
    by_cases hf : State.free { s with waiters := w, log := s.log ++ pre }
    · rw [if_pos hf] at hl ⊢
      have el : l = pre ++ [ending t ok] := by
        have : s.log ++ pre ++ [ending t ok] = s.log ++ l := hl
        rw [List.append_assoc] at this; exact (List.append_cancel_left this).symm
      have : u = t := by
        subst el
        rcases hu with hu | hu <;> rcases List.mem_append.mp hu with h' | h'
        · cases hpre _ h'
        · rw [List.mem_singleton] at h'; have := congrArg about h'; rw [ending_about] at this; exact this
        · cases hpre _ h'
        · rw [List.mem_singleton] at h'; have := congrArg about h'; rw [ending_about] at this; exact this
      subst this
      exact upd_same ..
    · rw [if_neg hf] at hl
      have el : l = pre := (List.append_cancel_left (show s.log ++ pre = s.log ++ l from hl)).symm
      exfalso
      refine none pre el ⟨fun h' => ?_, fun h' => ?_⟩ <;> cases hpre _ h'
  cases op with
  | acquire t =>
    exfalso; apply same
    simp only [step, acquire]
    cases s.pc t with
    | out => dsimp only; split <;> rfl
    | _ => rfl
  | release t =>
    exfalso; apply same
    simp only [step, release]
    cases s.pc t <;> rfl
  | wait t =>
    exfalso
    cases hp : s.pc t with
    | inside => exact none [.slept t] (more _ (by simp only [step, wait, hp]; rfl)) ⟨by simp, by simp⟩
    | _ => exact same (by simp only [step, wait, hp])
  | notify t n => exact (hnot t n rfl).elim
  | notifyAll t => exact (hnot t _ rfl).elim
  | wake t =>
    by_cases hp : s.pc t = .woken
    · exact rj t true [] (by simp) s.waiters (by simp only [step, wake, if_pos hp, List.append_nil])
    · exact (same (by simp only [step, wake, if_neg hp])).elim
  | resume t =>
    by_cases hh : s.holder = some t
    · cases hp : s.pc t with
      | back ok =>
        have e : (step s (.resume t)).1 = { s with log := s.log ++ [ending t ok] }.goto t .inside := by simp only [step, resume, if_pos hh, hp, goOn]
        have el := more [ending t ok] (by rw [e]; rfl)
        rw [e]
        have : u = t := by
          subst el
          rcases hu with h' | h' <;> (rw [List.mem_singleton] at h'; have := congrArg about h'; rw [ending_about] at this; exact this)
        subst this
        exact upd_same ..
      | _ => exact (same (by simp only [step, resume, if_pos hh, hp, goOn]; try rfl)).elim
    · exact (same (by simp only [step, resume, if_neg hh])).elim
  | cancel t =>
    cases hp : s.pc t with
    | queued =>
      exfalso; apply same
      simp only [step, cancel, hp]; split <;> rfl
    | asleep => exact rj t false [.cancelled t] (by simp) (s.waiters.erase t) (by simp only [step, cancel, hp])
    | woken => exact rj t false [.cancelled t] (by simp) s.waiters (by simp only [step, cancel, hp])
    | _ => exact (same (by simp only [step, cancel, hp])).elim

/-! ## C313 -/

/-- What has happened to a task. -/
def seen (t : Nat) (log : List Ev) : List Ev := log.filter (fun v => about v == t)

/-- Whether the task first runs (true) or is first cancelled (false) in the given steps. -/
def first (t : Nat) : List Op → Option Bool
  | [] => none
  | .wake u :: g => if u = t then some true else first t g
  | .cancel u :: g => if u = t then some false else first t g
  | _ :: g => first t g

theorem seen_append (t : Nat) (a b : List Ev) : seen t (a ++ b) = seen t a ++ seen t b := List.filter_append ..
theorem seen_same (t : Nat) {v : Ev} (h : about v = t) : seen t [v] = [v] := by simp [seen, h]
theorem seen_ne (t : Nat) {v : Ev} (h : about v ≠ t) : seen t [v] = [] := by simp [seen, h]

/-- Nothing concerns task `t`: it stays where it is and nothing happens to it. -/
def Still (t : Nat) (s s' : State) : Prop := s'.pc t = s.pc t ∧ seen t s'.log = seen t s.log

theorem Still.refl (t : Nat) (s : State) : Still t s s := ⟨rfl, rfl⟩
theorem Still.trans {t : Nat} {a b c : State} (h : Still t a b) (g : Still t b c) : Still t a c := ⟨g.1.trans h.1, g.2.trans h.2⟩

theorem rejoin_still {s : State} {t u : Nat} (hu : u ≠ t) (ok : Bool) : Still t s (rejoin s u ok) := by
  unfold rejoin
  split
  · refine ⟨upd_ne _ _ (Ne.symm hu), ?_⟩
    show seen t (s.log ++ [ending u ok]) = _
    rw [seen_append, seen_ne t (by rw [ending_about]; exact hu), List.append_nil]
  · exact ⟨upd_ne _ _ (Ne.symm hu), rfl⟩

theorem notifyOne_still {s : State} (hi : Inv s) {t : Nat} (hn : s.pc t ≠ .asleep) : Still t s (notifyOne s) := by
  unfold notifyOne
  split
  · exact Still.refl t s
  · rename_i w ws e
    have hw : w ≠ t := by
      rintro rfl; exact hn ((hi.cond.mem w).1 (by rw [e]; exact List.mem_cons_self ..))
    refine ⟨upd_ne _ _ (Ne.symm hw), ?_⟩
    show seen t (s.log ++ [.notified w]) = _
    rw [seen_append, seen_ne t (v := .notified w) hw, List.append_nil]

theorem notifyN_still {t : Nat} : ∀ (n : Nat) {s : State}, Inv s → s.pc t ≠ .asleep → Still t s (notifyN n s)
  | 0, s, _, _ => Still.refl t s
  | n + 1, s, hi, hn => by
    have h1 := notifyOne_still hi hn
    exact h1.trans (notifyN_still n (notifyOne_inv hi) (by rw [h1.1]; exact hn))

theorem step_still {s : State} (hi : Inv s) {t : Nat} (op : Op)
    (ht : (s.pc t = .woken ∧ op ≠ .wake t ∧ op ≠ .cancel t) ∨ (s.pc t = .back true ∧ ¬ (op = .resume t ∧ s.holder = some t))) : Still t s (step s op).1 := by
  have hpc : s.pc t = .woken ∨ s.pc t = .back true := ht.imp And.left And.left
  have hna : s.pc t ≠ .asleep := by rcases hpc with e | e <;> rw [e] <;> decide
  have hni : s.pc t ≠ .inside := by rcases hpc with e | e <;> rw [e] <;> decide
  have hno : s.pc t ≠ .out := by rcases hpc with e | e <;> rw [e] <;> decide
  have hnq : s.pc t ≠ .queued := by rcases hpc with e | e <;> rw [e] <;> decide
  have hnot : ∀ u n, Still t s (notify s u n).1 := by
    intro u n
    simp only [notify]
    cases hp : s.pc u with
    | inside => exact notifyN_still n hi hna
    | _ => exact Still.refl t s
  have ne : ∀ {u p}, s.pc u = p → s.pc t ≠ p → u ≠ t := by rintro u p e h rfl; exact h e
  cases op with
  | acquire u =>
    simp only [step, acquire]
    cases hp : s.pc u with
    | out =>
      have := ne hp hno
      dsimp only
      split <;> exact ⟨upd_ne _ _ (Ne.symm this), rfl⟩
    | _ => exact Still.refl t s
  | release u =>
    simp only [step, release]
    cases hp : s.pc u with
    | inside => exact ⟨upd_ne _ _ (Ne.symm (ne hp hni)), rfl⟩
    | _ => exact Still.refl t s
  | wait u =>
    simp only [step, wait]
    cases hp : s.pc u with
    | inside =>
      refine ⟨upd_ne _ _ (Ne.symm (ne hp hni)), ?_⟩
      show seen t (s.log ++ [.slept u]) = _
      rw [seen_append, seen_ne t (v := .slept u) (ne hp hni), List.append_nil]
    | _ => exact Still.refl t s
  | notify u n => exact hnot u n
  | notifyAll u => exact hnot u _
  | wake u =>
    simp only [step, wake]
    split
    · rename_i hp
      refine rejoin_still ?_ true
      rintro rfl
      rcases ht with ⟨_, h, _⟩ | ⟨h, _⟩
      · exact h rfl
      · rw [h] at hp; cases hp
    · exact Still.refl t s
  | resume u =>
    simp only [step, resume]
    split
    · rename_i hh
      cases hp : s.pc u with
      | queued => exact ⟨upd_ne _ _ (Ne.symm (ne hp hnq)), rfl⟩
      | back ok =>
        have hu : u ≠ t := by
          rintro rfl
          rcases ht with ⟨h, _⟩ | ⟨_, h⟩
          · rw [h] at hp; cases hp
          · exact h ⟨rfl, hh⟩
        refine ⟨upd_ne _ _ (Ne.symm hu), ?_⟩
        show seen t (s.log ++ [ending u ok]) = _
        rw [seen_append, seen_ne t (by rw [ending_about]; exact hu), List.append_nil]
      | _ => exact Still.refl t s
    · exact Still.refl t s
  | cancel u =>
    simp only [step, cancel]
    have out : ∀ w, u ≠ t → Still t s (rejoin { s with waiters := w, log := s.log ++ [.cancelled u] } u false) := by
      intro w hu
      refine Still.trans (b := { s with waiters := w, log := s.log ++ [.cancelled u] }) ⟨rfl, ?_⟩ (rejoin_still hu false)
      show seen t (s.log ++ [.cancelled u]) = _
      rw [seen_append, seen_ne t (v := .cancelled u) hu, List.append_nil]
    cases hp : s.pc u with
    | queued => dsimp only; split <;> exact ⟨upd_ne _ _ (Ne.symm (ne hp hnq)), rfl⟩
    | asleep => exact out _ (ne hp hna)
    | woken =>
      refine out s.waiters ?_
      rintro rfl
      rcases ht with ⟨_, _, h⟩ | ⟨h, _⟩
      · exact h rfl
      · rw [h] at hp; cases hp
    | _ => exact Still.refl t s

theorem rejoin_log (s : State) (t : Nat) (ok : Bool) : s.log <+: (rejoin s t ok).log := by
  unfold rejoin; split
  · exact List.prefix_append ..
  · exact List.prefix_refl _

theorem step_log (s : State) (op : Op) : s.log <+: (step s op).1.log := by
  have hnot : ∀ u n, s.log <+: (notify s u n).1.log := by
    intro u n
    simp only [notify]
    cases hp : s.pc u with
    | inside => rw [notifyN_log]; exact List.prefix_append ..
    | _ => exact List.prefix_refl _
  cases op with
  | acquire u =>
    simp only [step, acquire]
    cases hp : s.pc u with
    | out => dsimp only; split <;> exact List.prefix_refl _
    | _ => exact List.prefix_refl _
  | release u => simp only [step, release]; cases s.pc u <;> exact List.prefix_refl _
  | wait u =>
    simp only [step, wait]
    cases hp : s.pc u with
    | inside => exact List.prefix_append ..
    | _ => exact List.prefix_refl _
  | notify u n => exact hnot u n
  | notifyAll u => exact hnot u _
  | wake u =>
    simp only [step, wake]; split
    · exact rejoin_log ..
    · exact List.prefix_refl _
  | resume u =>
    simp only [step, resume]; split
    · cases s.pc u with
      | back ok => exact List.prefix_append ..
      | _ => exact List.prefix_refl _
    · exact List.prefix_refl _
  | cancel u =>
    simp only [step, cancel]
    cases hp : s.pc u with
    | queued => dsimp only; split <;> exact List.prefix_refl _
    | asleep => exact (List.prefix_append s.log [.cancelled u]).trans (rejoin_log { s with waiters := s.waiters.erase u, log := s.log ++ [.cancelled u] } u false)
    | woken => exact (List.prefix_append s.log [.cancelled u]).trans (rejoin_log { s with log := s.log ++ [.cancelled u] } u false)
    | _ => exact List.prefix_refl _

theorem run_log (g : List Op) : ∀ (s : State), s.log <+: (run s g).log := by
  induction g with
  | nil => intro s; exact List.prefix_refl _
  | cons a g ih => intro s; exact (step_log s a).trans (ih _)

theorem seen_prefix {a b : List Ev} (t : Nat) (h : a <+: b) : seen t a <+: seen t b := by
  obtain ⟨c, rfl⟩ := h
  rw [seen_append]; exact List.prefix_append ..

/-- If the events about a task continue with `v`, a longer record continues with `v`. -/
theorem head_of {a b : List Ev} {v u : Ev} {rest : List Ev} (h1 : a ++ [v] <+: b) (h2 : b = a ++ u :: rest) : u = v := by
  obtain ⟨c, hc⟩ := h1
  rw [h2, List.append_assoc] at hc
  have := List.append_cancel_left hc
  simp only [List.singleton_append, List.cons.injEq] at this
  exact this.1.symm

theorem back_next {t : Nat} (g : List Op) : ∀ {s : State}, Inv s → s.pc t = .back true → ∀ v rest, seen t (run s g).log = seen t s.log ++ v :: rest → v = .returned t := by
  induction g with
  | nil => intro s _ _ v rest h; exact absurd (congrArg List.length h) (by simp [run])
  | cons op g ih =>
    intro s hi hp v rest h
    by_cases c : op = .resume t ∧ s.holder = some t
    · obtain ⟨rfl, hh⟩ := c
      refine head_of (b := seen t (run s (.resume t :: g)).log) ?_ h
      have e : (step s (.resume t)).1.log = s.log ++ [.returned t] := by simp only [step, resume, if_pos hh, hp, goOn]; rfl
      have := seen_prefix t (run_log g (step s (.resume t)).1)
      rw [e, seen_append, seen_same t rfl] at this
      exact this
    · have st := step_still hi op (Or.inr ⟨hp, c⟩)
      refine ih (step_inv hi op) (by rw [st.1]; exact hp) v rest ?_
      rw [st.2]; exact h

theorem first_other {t : Nat} {op : Op} {g : List Op} (h1 : op ≠ .wake t) (h2 : op ≠ .cancel t) : first t (op :: g) = first t g := by
  cases op with
  | wake u => simp only [first]; rw [if_neg (fun e => h1 (by rw [e]))]
  | cancel u => simp only [first]; rw [if_neg (fun e => h2 (by rw [e]))]
  | _ => rfl

/-- **C313, exactly.**  A notified task that has not run since: what happens to it next, whatever else is done, is that its wait returns, exactly if it runs before it is cancelled, and that the
notification is lost, exactly if it is cancelled before it runs. -/
theorem C313_exact_partial (h g : List Op) (t : Nat) (ht : (run {} h).pc t = .woken) (v : Ev) (rest : List Ev)
    (hv : seen t (run {} (h ++ g)).log = seen t (run {} h).log ++ v :: rest) :
    (v = .returned t ↔ first t g = some true) ∧ (v = .cancelled t ↔ first t g = some false) := by
  have hi := run_inv h init_inv
  have e : run {} (h ++ g) = run (run {} h) g := by unfold run; rw [List.foldl_append]
  rw [e] at hv
  clear e
  generalize run {} h = s at *
  induction g generalizing s with
  | nil => exact absurd (congrArg List.length hv) (by simp [run])
  | cons op g ih =>
    by_cases c1 : op = .wake t
    · subst c1
      have hw : (step s (.wake t)).1 = rejoin s t true := by simp only [step, wake, if_pos ht]
      have key : v = .returned t := by
        by_cases hf : s.free
        · refine head_of (b := seen t (run s (.wake t :: g)).log) ?_ hv
          have e : (step s (.wake t)).1.log = s.log ++ [.returned t] := by rw [hw]; simp only [rejoin, if_pos hf]; rfl
          have := seen_prefix t (run_log g (step s (.wake t)).1)
          rw [e, seen_append, seen_same t rfl] at this
          exact this
        · have e : (step s (.wake t)).1 = { s with queue := s.queue ++ [t] }.goto t (.back true) := by rw [hw]; simp only [rejoin, if_neg hf]
          refine back_next g (s := (step s (.wake t)).1) (step_inv hi _) (by rw [e]; exact upd_same ..) v rest ?_
          rw [show seen t (step s (.wake t)).1.log = seen t s.log from by rw [e]; rfl]; exact hv
      subst key
      simp [first]
    · by_cases c2 : op = .cancel t
      · subst c2
        have key : v = .cancelled t := by
          refine head_of (b := seen t (run s (.cancel t :: g)).log) ?_ hv
          have e : (step s (.cancel t)).1 = rejoin { s with log := s.log ++ [.cancelled t] } t false := by simp only [step, cancel, ht]
          have p1 : s.log ++ [.cancelled t] <+: (step s (.cancel t)).1.log := by rw [e]; exact rejoin_log { s with log := s.log ++ [.cancelled t] } t false
          have := (seen_prefix t p1).trans (seen_prefix t (run_log g (step s (.cancel t)).1))
          rw [seen_append, seen_same t rfl] at this
          exact this
        subst key
        simp [first]
      · have st := step_still hi op (Or.inl ⟨ht, c1, c2⟩)
        rw [first_other c1 c2]
        exact ih (step s op).1 (by rw [st.1]; exact ht) (by rw [st.2]; exact hv) (step_inv hi op)

/-- Two tasks wait, a third one notifies one of them. -/
def two : List Op := [.acquire 0, .wait 0, .acquire 1, .wait 1, .acquire 2, .notify 2 1]

/-- **C313 fails**: the notified task is cancelled before it runs; its wait raises, and the other task, which could have used the notification, goes on sleeping. -/
theorem C313_violation :
    (run {} (two ++ [.release 2, .cancel 0, .release 0])).log = [.slept 0, .slept 1, .notified 0, .cancelled 0, .raised 0] ∧
    (run {} (two ++ [.release 2, .cancel 0, .release 0])).pc 1 = .asleep ∧ (run {} (two ++ [.release 2, .cancel 0, .release 0])).holder = none := by decide

/-- The normal course: the notified task returns with the lock, once the other one has released it. -/
example : (run {} two).pc 0 = .woken ∧ (run {} two).pc 2 = .inside ∧ (run {} (two ++ [.wake 0, .release 2, .resume 0])).log = [.slept 0, .slept 1, .notified 0, .returned 0] ∧
    (run {} (two ++ [.wake 0, .release 2, .resume 0])).pc 0 = .inside ∧ sleepers (run {} two).log = [1] ∧ wants ((run {} (two ++ [.wake 0])).pc 0) = true := by decide

end Verif.Condition
