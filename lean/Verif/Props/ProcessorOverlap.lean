import Verif.Props.Processor

set_option linter.unusedSectionVars false
set_option linter.unusedSimpArgs false
set_option linter.unusedVariables false

/-!
# C26 with overlapping `process()` calls
-/

namespace Verif.Processor

/-- The observation is the end of another `process()` call that has started events (it resets the shared capacity). -/
def isOtherEnd (i : Nat) : Obs → Bool
  | .reset j => j != i
  | _ => false

/-- How many other `process()` calls that have started events have ended. -/
def otherEnds (i : Nat) (l : List Obs) : Nat := (l.filter (isOtherEnd i)).length

theorem otherEnds_snoc (i : Nat) (l : List Obs) (o : Obs) (h : isOtherEnd i o = false) : otherEnds i (l ++ [o]) = otherEnds i l := by
  unfold otherEnds
  rw [List.filter_append, List.length_append, List.filter_cons_of_neg (by simp [h])]
  rfl

theorem otherEnds_reset (i j : Nat) (l : List Obs) (h : j ≠ i) : otherEnds i (l ++ [.reset j]) = otherEnds i l + 1 := by
  have hr : isOtherEnd i (.reset j) = true := by simp [isOtherEnd, h]
  unfold otherEnds
  rw [List.filter_append, List.length_append, List.filter_cons_of_pos hr]
  rfl

/-- The allowance of call `i` when `o` other calls have ended, `r` of them before it was made. -/
def allowance (c : Cfg) (r o : Nat) : Int := c.queueCapacity * (1 + ((o : Int) - r))

theorem allowance_succ (c : Cfg) (r o : Nat) : allowance c r (o + 1) = allowance c r o + c.queueCapacity := by
  unfold allowance
  rw [show (1 + (((o + 1 : Nat) : Int) - r)) = (1 + ((o : Int) - r)) + 1 by omega, Int.mul_add, Int.mul_one]

structure Over (c : Cfg) (i r : Nat) (s : Sys) : Prop where
  here : i < s.calls.length
  le : s.cap ≤ c.queueCapacity
  bound : (starts i s.log : Int) ≤ allowance c r (otherEnds i s.log)
  act : ∀ cl, s.calls[i]? = some cl → cl.ended = false → (starts i s.log : Int) + s.cap ≤ allowance c r (otherEnds i s.log)
  loop : ∀ cl, s.calls[i]? = some cl → cl.pc.inLoop = true → (starts i s.log : Int) + 1 ≤ allowance c r (otherEnds i s.log)

theorem inLoop_not_ended {cl : Call} (h : cl.pc.inLoop = true) : cl.ended = false := by
  cases hp : cl.pc <;> simp [hp, PC.inLoop, Call.ended] at h ⊢

/-- A step that leaves call `i`, its starts and the ends of others alone and does not raise the capacity. -/
theorem Over.same {c : Cfg} {i r : Nat} {s s' : Sys} (h : Over c i r s) (hlen : s.calls.length ≤ s'.calls.length)
    (hc : s'.calls[i]? = s.calls[i]?) (hcap : s'.cap ≤ s.cap) (hs : starts i s'.log = starts i s.log)
    (ho : otherEnds i s'.log = otherEnds i s.log) : Over c i r s' := by
  refine ⟨Nat.lt_of_lt_of_le h.here hlen, Int.le_trans hcap h.le, by rw [hs, ho]; exact h.bound, ?_, ?_⟩
  · intro cl hi he
    rw [hc] at hi
    have := h.act cl hi he
    rw [hs, ho]; omega
  · intro cl hi he
    rw [hc] at hi
    rw [hs, ho]; exact h.loop cl hi he

/-- Another call ends and resets the capacity. -/
theorem Over.reset {c : Cfg} {i r : Nat} {s s' : Sys} (hv : c.Valid) (h : Over c i r s) (hlen : s.calls.length ≤ s'.calls.length)
    (hc : s'.calls[i]? = s.calls[i]?) (hcap : s'.cap = c.queueCapacity) (hs : starts i s'.log = starts i s.log)
    (ho : otherEnds i s'.log = otherEnds i s.log + 1) : Over c i r s' := by
  have h1 := hv.1
  have hb := h.bound
  refine ⟨Nat.lt_of_lt_of_le h.here hlen, by omega, ?_, ?_, ?_⟩
  · rw [hs, ho, allowance_succ]; omega
  · intro cl hi he
    rw [hs, ho, allowance_succ, hcap]; omega
  · intro cl hi he
    rw [hs, ho, allowance_succ]; omega

/-- A step of call `i` itself without a start. -/
theorem Over.own {c : Cfg} {i r : Nat} {s s' : Sys} (h : Over c i r s) {cl : Call} (hi : s.calls[i]? = some cl) (ha : cl.ended = false)
    (cl' : Call) (hc : s'.calls = s.calls.set i cl') (hs : starts i s'.log = starts i s.log) (ho : otherEnds i s'.log = otherEnds i s.log)
    (hcap : s'.cap = s.cap ∨ (s'.cap = c.queueCapacity ∧ cl'.ended = true))
    (hl : cl'.pc.inLoop = true → cl.pc.inLoop = true ∨ 1 ≤ s.cap) : Over c i r s' := by
  have hlt := h.here
  have hget : s'.calls[i]? = some cl' := by rw [hc]; simp [hlt]
  have hact := h.act cl hi ha
  refine ⟨by rw [hc]; simpa using hlt, ?_, by rw [hs, ho]; exact h.bound, ?_, ?_⟩
  · rcases hcap with e | ⟨e, _⟩
    · rw [e]; exact h.le
    · omega
  · intro x hx he
    rw [hget] at hx
    cases hx
    rcases hcap with e | ⟨_, e⟩
    · rw [hs, ho, e]; exact hact
    · rw [e] at he; cases he
  · intro x hx he
    rw [hget] at hx
    cases hx
    rw [hs, ho]
    rcases hl he with e | e
    · exact h.loop cl hi e
    · omega

theorem Over.started {c : Cfg} {i r : Nat} {s s' : Sys} (h : Over c i r s) {cl : Call} (hi : s.calls[i]? = some cl) (hin : cl.pc.inLoop = true)
    (n : Nat) (hc : s'.calls = s.calls.set i ⟨n, .check⟩) (hs : starts i s'.log = starts i s.log + 1)
    (ho : otherEnds i s'.log = otherEnds i s.log) (hcap : s'.cap = s.cap - 1) : Over c i r s' := by
  have hlt := h.here
  have hget : s'.calls[i]? = some ⟨n, .check⟩ := by rw [hc]; simp [hlt]
  have hact := h.act cl hi (inLoop_not_ended hin)
  have hloop := h.loop cl hi hin
  have hle := h.le
  refine ⟨by rw [hc]; simpa using hlt, by omega, by rw [hs, ho]; omega, ?_, ?_⟩
  · intro x hx he
    rw [hs, ho, hcap]; omega
  · intro x hx he
    rw [hget] at hx
    cases hx
    cases he

theorem set_get_ne {l : List Call} {i j : Nat} (h : j ≠ i) (x : Call) : (l.set j x)[i]? = l[i]? := by
  rw [List.getElem?_set]; simp [h]

theorem Over.advance {c : Cfg} (hv : c.Valid) {i r : Nat} {s : Sys} (h : Over c i r s) {j : Nat} {cl : Call} (hj : s.calls[j]? = some cl)
    (found : Bool) (perm : Perm) : Over c i r (advance c s j cl found perm) := by
  by_cases hji : j = i
  · subst hji
    unfold Processor.advance
    cases hpc : cl.pc with
    | check =>
      have ha : cl.ended = false := by simp [Call.ended, hpc]
      simp only
      split
      · next hc => exact h.own hj ha _ rfl rfl rfl (.inl rfl) (fun _ => .inr (by omega))
      · exact h.own hj ha _ rfl rfl rfl (.inl rfl) (fun hx => by cases hx)
    | getting =>
      have ha : cl.ended = false := by simp [Call.ended, hpc]
      simp only
      cases hq : Heapq.pop entryLt s.queue with
      | none => exact h
      | some q =>
        obtain ⟨e, q⟩ := q
        simp only
        split
        · exact h.own hj ha _ rfl (starts_snoc j _ _ rfl) (otherEnds_snoc j _ _ rfl) (.inl rfl) (fun _ => .inl (by rw [hpc]; rfl))
        · refine h.own hj ha { cl with pc := .check } rfl ?_ ?_ (.inl rfl) (fun hx => by cases hx)
          · exact (starts_snoc j _ _ rfl).trans (starts_snoc j _ _ rfl)
          · exact (otherEnds_snoc j _ _ rfl).trans (otherEnds_snoc j _ _ rfl)
    | asking e =>
      have ha : cl.ended = false := by simp [Call.ended, hpc]
      simp only
      cases perm with
      | grant => exact h.own hj ha _ rfl (starts_snoc j _ _ rfl) (otherEnds_snoc j _ _ rfl) (.inl rfl) (fun _ => .inl (by rw [hpc]; rfl))
      | deny =>
        simp only [Processor.deny]
        split
        · refine h.own hj ha { cl with pc := .aborting e } rfl ?_ ?_ (.inl rfl) (fun hx => by cases hx)
          · exact (starts_snoc j _ _ rfl).trans (starts_snoc j _ _ rfl)
          · exact (otherEnds_snoc j _ _ rfl).trans (otherEnds_snoc j _ _ rfl)
        · exact h.own hj ha _ rfl (starts_snoc j _ _ rfl) (otherEnds_snoc j _ _ rfl) (.inl rfl) (fun hx => by cases hx)
      | raise => exact h.own hj ha _ rfl rfl rfl (.inl rfl) (fun hx => by cases hx)
    | granted e => exact h.started hj (by rw [hpc]; rfl) _ rfl (starts_snoc_self j _ e) (otherEnds_snoc j _ _ rfl) rfl
    | aborting e =>
      have ha : cl.ended = false := by simp [Call.ended, hpc]
      exact h.own hj ha _ rfl (starts_snoc j _ _ rfl) (otherEnds_snoc j _ _ rfl) (.inl rfl) (fun hx => by cases hx)
    | requeueing e n =>
      have ha : cl.ended = false := by simp [Call.ended, hpc]
      exact h.own hj ha _ rfl (starts_snoc j _ _ rfl) (otherEnds_snoc j _ _ rfl) (.inl rfl) (fun hx => by cases hx)
    | draining =>
      have ha : cl.ended = false := by simp [Call.ended, hpc]
      simp only
      split
      · exact h.own hj ha _ rfl (starts_snoc j _ _ rfl) (otherEnds_snoc j _ _ (by simp [isOtherEnd])) (.inr ⟨rfl, rfl⟩) (fun hx => by cases hx)
      · exact h.own hj ha _ rfl rfl rfl (.inl rfl) (fun hx => by cases hx)
    | done => exact h
    | failed => exact h
  · have hne : ∀ e, isStart i (.start j e) = false := by intro e; simp [isStart, hji]
    have hlen : ∀ x : Call, s.calls.length ≤ (s.calls.set j x).length := by intro x; simp
    have hget : ∀ x : Call, (s.calls.set j x)[i]? = s.calls[i]? := fun x => set_get_ne hji x
    have hle : s.cap ≤ s.cap := Int.le_refl _
    unfold Processor.advance
    cases hpc : cl.pc with
    | check =>
      simp only
      split
      · exact h.same (hlen _) (hget _) hle rfl rfl
      · exact h.same (hlen _) (hget _) hle rfl rfl
    | getting =>
      simp only
      cases hq : Heapq.pop entryLt s.queue with
      | none => exact h
      | some q =>
        obtain ⟨e, q⟩ := q
        simp only
        split
        · exact h.same (hlen _) (hget _) hle (starts_snoc i _ _ rfl) (otherEnds_snoc i _ _ rfl)
        · exact h.same (hlen _) (hget _) hle ((starts_snoc i _ _ rfl).trans (starts_snoc i _ _ rfl))
            ((otherEnds_snoc i _ _ rfl).trans (otherEnds_snoc i _ _ rfl))
    | asking e =>
      simp only
      cases perm with
      | grant => exact h.same (hlen _) (hget _) hle (starts_snoc i _ _ rfl) (otherEnds_snoc i _ _ rfl)
      | deny =>
        simp only [Processor.deny]
        split
        · exact h.same (hlen _) (hget _) hle ((starts_snoc i _ _ rfl).trans (starts_snoc i _ _ rfl))
            ((otherEnds_snoc i _ _ rfl).trans (otherEnds_snoc i _ _ rfl))
        · exact h.same (hlen _) (hget _) hle (starts_snoc i _ _ rfl) (otherEnds_snoc i _ _ rfl)
      | raise => exact h.same (hlen _) (hget _) hle rfl rfl
    | granted e =>
      exact h.same (hlen _) (hget _) (by show s.cap - 1 ≤ s.cap; omega) (starts_snoc i _ _ (hne e)) (otherEnds_snoc i _ _ rfl)
    | aborting e => exact h.same (hlen _) (hget _) hle (starts_snoc i _ _ rfl) (otherEnds_snoc i _ _ rfl)
    | requeueing e n => exact h.same (hlen _) (hget _) hle (starts_snoc i _ _ rfl) (otherEnds_snoc i _ _ rfl)
    | draining =>
      simp only
      split
      · exact h.reset hv (hlen _) (hget _) rfl (starts_snoc i _ _ rfl) (otherEnds_reset i j _ hji)
      · exact h.same (hlen _) (hget _) hle rfl rfl
    | done => exact h
    | failed => exact h

theorem Over.step {c : Cfg} (hv : c.Valid) {i r : Nat} {s : Sys} (h : Over c i r s) (a : Act) : Over c i r (step c s a) := by
  have hle : s.cap ≤ s.cap := Int.le_refl _
  cases a with
  | enqueue id prio created =>
    simp only [Processor.step, Processor.enqueue]
    split
    · exact h.same (Nat.le_refl _) rfl hle (starts_snoc i _ _ rfl) (otherEnds_snoc i _ _ rfl)
    · split
      · exact h.same (Nat.le_refl _) rfl hle rfl rfl
      · exact h.same (Nat.le_refl _) rfl hle (starts_snoc i _ _ rfl) (otherEnds_snoc i _ _ rfl)
      · split
        · exact h.same (Nat.le_refl _) rfl hle rfl rfl
        · exact h.same (Nat.le_refl _) rfl hle (starts_snoc i _ _ rfl) (otherEnds_snoc i _ _ rfl)
  | enqPut k =>
    simp only [Processor.step, Processor.enqPut]
    split
    · exact h
    · exact h.same (Nat.le_refl _) rfl hle (starts_snoc i _ _ rfl) (otherEnds_snoc i _ _ rfl)
  | process =>
    refine h.same (by simp [Processor.step]) ?_ hle rfl rfl
    simp only [Processor.step]
    exact List.getElem?_append_left h.here
  | go j found perm =>
    simp only [Processor.step]
    split
    · exact h
    · next cl hj => exact h.advance hv hj found perm
  | cancel j =>
    simp only [Processor.step]
    split
    · exact h
    · next cl hj =>
      split
      · exact h
      · next hne =>
        by_cases hji : j = i
        · subst hji
          exact h.own hj (Bool.eq_false_iff.2 hne) _ rfl rfl rfl (.inl rfl) (fun hx => by cases hx)
        · exact h.same (by simp [setCall]) (set_get_ne hji _) hle rfl rfl
  | stop => exact h.same (Nat.le_refl _) rfl hle (starts_snoc i _ _ rfl) (otherEnds_snoc i _ _ rfl)
  | forget id => exact h.same (Nat.le_refl _) rfl hle (starts_snoc i _ _ rfl) (otherEnds_snoc i _ _ rfl)

theorem Over.run {c : Cfg} (hv : c.Valid) {i r : Nat} (as : List Act) {s : Sys} (h : Over c i r s) : Over c i r (run c s as) := by
  induction as generalizing s with
  | nil => exact h
  | cons a as ih => exact ih (h.step hv a)

/-- Before a call is made nothing is started by it, and the capacity is never above the configured one. -/
structure Before (c : Cfg) (s : Sys) : Prop where
  le : s.cap ≤ c.queueCapacity
  none : ∀ i : Nat, s.calls.length ≤ i → starts i s.log = 0

theorem Before.same {c : Cfg} {s s' : Sys} (h : Before c s) (hlen : s'.calls.length = s.calls.length) (hcap : s'.cap ≤ c.queueCapacity)
    (hs : ∀ i, s.calls.length ≤ i → starts i s'.log = starts i s.log) : Before c s' :=
  ⟨hcap, fun i hi => by rw [hlen] at hi; rw [hs i hi]; exact h.none i hi⟩

theorem Before.advance {c : Cfg} {s : Sys} (h : Before c s) {j : Nat} {cl : Call} (hj : s.calls[j]? = some cl)
    (found : Bool) (perm : Perm) : Before c (advance c s j cl found perm) := by
  have hlt : j < s.calls.length := (List.getElem?_eq_some_iff.1 hj).1
  have hlen : ∀ x : Call, (s.calls.set j x).length = s.calls.length := by intro x; simp
  unfold Processor.advance
  cases hpc : cl.pc with
  | check =>
    simp only
    split
    · exact h.same (hlen _) h.le (fun i _ => rfl)
    · exact h.same (hlen _) h.le (fun i _ => rfl)
  | getting =>
    simp only
    cases hq : Heapq.pop entryLt s.queue with
    | none => exact h
    | some q =>
      obtain ⟨e, q⟩ := q
      simp only
      split
      · exact h.same (hlen _) h.le (fun i _ => starts_snoc i _ _ rfl)
      · exact h.same (hlen _) h.le (fun i _ => (starts_snoc i _ _ rfl).trans (starts_snoc i _ _ rfl))
  | asking e =>
    simp only
    cases perm with
    | grant => exact h.same (hlen _) h.le (fun i _ => starts_snoc i _ _ rfl)
    | deny =>
      simp only [Processor.deny]
      split
      · exact h.same (hlen _) h.le (fun i _ => (starts_snoc i _ _ rfl).trans (starts_snoc i _ _ rfl))
      · exact h.same (hlen _) h.le (fun i _ => starts_snoc i _ _ rfl)
    | raise => exact h.same (hlen _) h.le (fun i _ => rfl)
  | granted e =>
    refine h.same (hlen _) (by have := h.le; show s.cap - 1 ≤ _; omega) (fun i hi => starts_snoc i _ _ ?_)
    simp only [isStart, beq_eq_false_iff_ne]; omega
  | aborting e => exact h.same (hlen _) h.le (fun i _ => starts_snoc i _ _ rfl)
  | requeueing e n => exact h.same (hlen _) h.le (fun i _ => starts_snoc i _ _ rfl)
  | draining =>
    simp only
    split
    · exact h.same (hlen _) (Int.le_refl _) (fun i _ => starts_snoc i _ _ rfl)
    · exact h.same (hlen _) h.le (fun i _ => rfl)
  | done => exact h
  | failed => exact h

theorem Before.step {c : Cfg} {s : Sys} (h : Before c s) (a : Act) : Before c (step c s a) := by
  cases a with
  | enqueue id prio created =>
    simp only [Processor.step, Processor.enqueue]
    split
    · exact h.same rfl h.le (fun i _ => starts_snoc i _ _ rfl)
    · split
      · exact h.same rfl h.le (fun i _ => rfl)
      · exact h.same rfl h.le (fun i _ => starts_snoc i _ _ rfl)
      · split
        · exact h.same rfl h.le (fun i _ => rfl)
        · exact h.same rfl h.le (fun i _ => starts_snoc i _ _ rfl)
  | enqPut k =>
    simp only [Processor.step, Processor.enqPut]
    split
    · exact h
    · exact h.same rfl h.le (fun i _ => starts_snoc i _ _ rfl)
  | process =>
    refine ⟨h.le, fun i hi => h.none i ?_⟩
    simp [Processor.step] at hi
    omega
  | go j found perm =>
    simp only [Processor.step]
    split
    · exact h
    · next cl hj => exact h.advance hj found perm
  | cancel j =>
    simp only [Processor.step]
    split
    · exact h
    · next cl hj =>
      split
      · exact h
      · exact h.same (by simp [setCall]) h.le (fun i _ => rfl)
  | stop => exact h.same rfl h.le (fun i _ => starts_snoc i _ _ rfl)
  | forget id => exact h.same rfl h.le (fun i _ => starts_snoc i _ _ rfl)

theorem Before.run {c : Cfg} (as : List Act) {s : Sys} (h : Before c s) : Before c (run c s as) := by
  induction as generalizing s with
  | nil => exact h
  | cons a as ih => exact ih (h.step a)

/-- C26 with overlapping calls.  A `process()` call made after the history `as`, whatever happens from then on (`bs`, with any number
of other `process()` calls running at the same time), starts at most `queue_capacity` events for itself and for each other `process()` call
that ended, after starting events, since it was made. -/
theorem C26_overlapping {c : Cfg} (hv : c.Valid) (as bs : List Act) (s t : Sys) (hs : s = run c (init c) as) (ht : t = run c (init c) (as ++ .process :: bs)) :
    (starts s.calls.length t.log : Int) ≤
      c.queueCapacity * (1 + ((otherEnds s.calls.length t.log : Int) - otherEnds s.calls.length s.log)) := by
  have hb : Before c s := by
    rw [hs]
    exact Before.run as ⟨Int.le_refl _, fun i _ => rfl⟩
  have ht' : t = run c (step c s .process) bs := by rw [ht, hs]; simp [run, List.foldl_append]
  have hq := hv.1
  have h0 : starts s.calls.length s.log = 0 := hb.none _ (Nat.le_refl _)
  have hal : allowance c (otherEnds s.calls.length s.log) (otherEnds s.calls.length s.log) = c.queueCapacity := by
    unfold allowance
    rw [show (1 + ((otherEnds s.calls.length s.log : Int) - (otherEnds s.calls.length s.log : Nat))) = 1 by omega, Int.mul_one]
  have hle := hb.le
  have ho : Over c s.calls.length (otherEnds s.calls.length s.log) (step c s .process) := by
    refine ⟨by simp [Processor.step], hb.le, ?_, ?_, ?_⟩
    · show (starts s.calls.length s.log : Int) ≤ allowance c _ (otherEnds s.calls.length s.log)
      rw [hal, h0]; omega
    · intro cl _ _
      show (starts s.calls.length s.log : Int) + s.cap ≤ allowance c _ (otherEnds s.calls.length s.log)
      rw [hal, h0]; omega
    · intro cl _ _
      show (starts s.calls.length s.log : Int) + 1 ≤ allowance c _ (otherEnds s.calls.length s.log)
      rw [hal, h0]; omega
  rw [ht']
  exact (ho.run hv bs).bound

/-- The bound of `C26_capacity` needs that calls do not overlap: with `queue_capacity` 1 the first of two overlapping calls starts two events. -/
theorem C26_overlap_limit : (⟨1, 10, 10⟩ : Cfg).Valid ∧
    starts 0 (run ⟨1, 10, 10⟩ (init ⟨1, 10, 10⟩)
      [.enqueue 7 (some (.finite 1)) none, .enqPut 0, .enqueue 8 (some (.finite 2)) none, .enqPut 0, .enqueue 9 (some (.finite 3)) none, .enqPut 0,
       .process, .process, .go 1 true .grant, .go 0 true .grant,          -- both calls have passed the capacity test
       .go 0 true .grant, .go 0 true .grant, .go 0 true .grant,           -- call 0 starts event 7, capacity 0
       .go 1 true .grant, .go 1 true .grant, .go 1 true .grant,           -- call 1 starts event 8, capacity -1
       .go 1 true .grant, .go 1 true .grant,                              -- call 1 ends and resets the capacity to 1
       .go 0 true .grant, .go 0 true .grant, .go 0 true .grant, .go 0 true .grant]).log = 2 := by
  refine ⟨by simp [Cfg.Valid], by decide⟩

/-- Non-vacuity of `C26_overlapping`: one other call ends during the call, and its bound 2 is reached. -/
example :
    let s := run ⟨1, 10, 10⟩ (init ⟨1, 10, 10⟩)
      [.enqueue 7 (some (.finite 1)) none, .enqPut 0, .enqueue 8 (some (.finite 2)) none, .enqPut 0, .enqueue 9 (some (.finite 3)) none, .enqPut 0]
    let t := run ⟨1, 10, 10⟩ s ([.process, .process, .go 1 true .grant, .go 0 true .grant, .go 0 true .grant, .go 0 true .grant, .go 0 true .grant,
       .go 1 true .grant, .go 1 true .grant, .go 1 true .grant, .go 1 true .grant, .go 1 true .grant,
       .go 0 true .grant, .go 0 true .grant, .go 0 true .grant, .go 0 true .grant])
    s.calls.length = 0 ∧ starts 0 t.log = 2 ∧ otherEnds 0 t.log = 1 ∧ otherEnds 0 s.log = 0 := by decide

end Verif.Processor
