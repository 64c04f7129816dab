import Verif.Spec.ProcessorTrace

/-!
# Processor: C26–C29, C91, C92
-/

set_option linter.unusedSectionVars false
set_option linter.unusedSimpArgs false
set_option linter.unusedVariables false

namespace Verif.Processor

theorem entryOrder : Heapq.Order entryLt := by
  constructor
  · intro a b h
    simp only [entryLt, Bool.or_eq_true, Bool.and_eq_true, decide_eq_true_eq, Bool.or_eq_false_iff, Bool.and_eq_false_iff,
      decide_eq_false_iff_not] at h ⊢
    omega
  · intro a b c h1 h2
    simp only [Heapq.le, entryLt, Bool.or_eq_true, Bool.and_eq_true, decide_eq_true_eq, Bool.or_eq_false_iff, Bool.and_eq_false_iff,
      decide_eq_false_iff_not] at h1 h2 ⊢
    omega

/-! ### Every history is a permitted history -/

def RelPC : PC → Slot → Prop
  | .asking e, x => x = .holding e
  | .granted e, x => x = .granted e
  | .aborting e, x => x = .condemned e
  | .requeueing e n, x => x = .denied e ∧ (n = 1 ∨ n = 2)
  | .failed, _ => True
  | _, x => x = .free

def Rel : Option Call → Slot → Prop
  | none, x => x = .free
  | some cl, x => RelPC cl.pc x

structure Sim (s : Sys) (slot : Nat → Slot) : Prop where
  heap : Heapq.IsHeap entryLt s.queue
  trace : Steps start s.log ⟨s.queue, slot⟩
  rel : ∀ j : Nat, Rel s.calls[j]? (slot j)

theorem rel_set {calls : List Call} {h : Nat → Slot} (hr : ∀ j : Nat, Rel calls[j]? (h j)) {i : Nat} {cl cl' : Call}
    (hi : calls[i]? = some cl) {x : Slot} (hx : RelPC cl'.pc x) : ∀ j : Nat, Rel (calls.set i cl')[j]? (put h i x j) := by
  intro j
  have hlt : i < calls.length := (List.getElem?_eq_some_iff.1 hi).1
  rw [List.getElem?_set]
  by_cases hj : i = j
  · subst hj
    simp only [if_true, hlt, put]
    exact hx
  · have hj' : j ≠ i := fun e => hj e.symm
    simp only [hj, hj', if_false, put]
    exact hr j

theorem put_self (h : Nat → Slot) (i : Nat) (x : Slot) : put h i x i = x := by simp [put]
theorem put_put (h : Nat → Slot) (i : Nat) (x y : Slot) : put (put h i x) i y = put h i y := by
  funext j; simp only [put]; split <;> rfl
theorem put_same (h : Nat → Slot) (i : Nat) {x : Slot} (hx : h i = x) : put h i x = h := by
  funext j; simp only [put]; split
  · next e => rw [e, hx]
  · rfl

theorem rel_set_same {calls : List Call} {h : Nat → Slot} (hr : ∀ j : Nat, Rel calls[j]? (h j)) {i : Nat} {cl cl' : Call}
    (hi : calls[i]? = some cl) (hx : RelPC cl'.pc (h i)) : ∀ j : Nat, Rel (calls.set i cl')[j]? (h j) := by
  have := rel_set hr hi hx
  rw [put_same h i rfl] at this
  exact this

theorem nextCount_pos (c : Cfg) (d : Dict Nat Nat) (id : Nat) : 1 ≤ nextCount c d id := by unfold nextCount; omega

theorem Sim.neutral {s : Sys} {slot : Nat → Slot} (h : Sim s slot) {o : Obs} (ho : TStep ⟨s.queue, slot⟩ ⟨s.queue, slot⟩ o)
    (d : Dict Nat Nat) (cap : Int) (pd : List Entry) :
    Sim { s with denials := d, cap := cap, pending := pd, log := s.log ++ [o] } slot :=
  ⟨h.heap, h.trace.snoc ho, h.rel⟩

theorem Sim.advance {c : Cfg} {s : Sys} {slot : Nat → Slot} (h : Sim s slot) {i : Nat} {cl : Call} (hi : s.calls[i]? = some cl)
    (found : Bool) (perm : Perm) : ∃ slot', Sim (advance c s i cl found perm) slot' := by
  have hrel := h.rel i
  rw [hi] at hrel
  have hrel' : RelPC cl.pc (slot i) := hrel
  unfold Processor.advance
  cases hpc : cl.pc with
  | check =>
    rw [hpc] at hrel'
    simp only
    split
    · exact ⟨slot, h.heap, h.trace, rel_set_same h.rel hi hrel'⟩
    · exact ⟨slot, h.heap, h.trace, rel_set_same h.rel hi hrel'⟩
  | getting =>
    rw [hpc] at hrel'
    have hfree : slot i = .free := hrel'
    simp only
    cases hq : Heapq.pop entryLt s.queue with
    | none => exact ⟨slot, h⟩
    | some r =>
      obtain ⟨e, q⟩ := r
      obtain ⟨h1, h2, h3⟩ := Heapq.pop_spec entryOrder h.heap hq
      simp only
      have ht : TStep ⟨s.queue, slot⟩ ⟨q, put slot i (.holding e)⟩ (.take i e) := ⟨h1, h3, hfree, rfl⟩
      split
      · exact ⟨_, h2, h.trace.snoc ht, rel_set h.rel hi rfl⟩
      · refine ⟨slot, h2, ?_, rel_set_same h.rel hi hfree⟩
        refine (h.trace.snoc ht).snoc (o := .skip i e.2) ⟨e.1, put_self _ _ _, rfl, ?_⟩
        show slot = put (put slot i (.holding e)) i .free
        rw [put_put, put_same slot i hfree]
  | asking e =>
    rw [hpc] at hrel'
    have hh : slot i = .holding e := hrel'
    simp only
    cases perm with
    | grant => exact ⟨put slot i (.granted e), h.heap, h.trace.snoc (o := .grant i e.2) ⟨e.1, hh, rfl, rfl⟩, rel_set h.rel hi rfl⟩
    | deny =>
      simp only [Processor.deny]
      have ht : TStep ⟨s.queue, slot⟩ ⟨s.queue, put slot i (.denied e)⟩ (.deny i e.2) := ⟨e.1, hh, rfl, rfl⟩
      split
      · refine ⟨put slot i (.condemned e), h.heap, ?_, rel_set h.rel hi rfl⟩
        refine (h.trace.snoc ht).snoc (o := .abort i e.2) ⟨e.1, put_self _ _ _, rfl, ?_⟩
        rw [put_put]
      · next hn =>
        refine ⟨_, h.heap, h.trace.snoc ht, rel_set h.rel hi ?_⟩
        refine ⟨rfl, ?_⟩
        have := nextCount_pos c s.denials e.2
        omega
    | raise => exact ⟨slot, h.heap, h.trace, rel_set_same h.rel hi trivial⟩
  | granted e =>
    rw [hpc] at hrel'
    have hh : slot i = .granted e := hrel'
    exact ⟨put slot i .free, h.heap, h.trace.snoc (o := .start i e) ⟨hh, rfl, rfl⟩, rel_set h.rel hi rfl⟩
  | aborting e =>
    rw [hpc] at hrel'
    have hh : slot i = .condemned e := hrel'
    exact ⟨put slot i .free, h.heap, h.trace.snoc (o := .aborted i e.2) ⟨e.1, hh, rfl, rfl⟩, rel_set h.rel hi rfl⟩
  | requeueing e n =>
    rw [hpc] at hrel'
    obtain ⟨hh, hn⟩ : slot i = .denied e ∧ (n = 1 ∨ n = 2) := hrel'
    refine ⟨put slot i .free, Heapq.push_heap entryOrder h.heap _, h.trace.snoc (o := .requeue i (e.1 + n, e.2))
      ⟨e.1, hh, ?_, Heapq.push_perm entryLt s.queue _, rfl⟩, rel_set h.rel hi rfl⟩
    rcases hn with rfl | rfl
    · exact .inl rfl
    · exact .inr rfl
  | draining =>
    rw [hpc] at hrel'
    simp only
    split
    · exact ⟨slot, h.heap, h.trace.snoc (o := .reset i) ⟨rfl, rfl⟩, rel_set_same h.rel hi hrel'⟩
    · exact ⟨slot, h.heap, h.trace, rel_set_same h.rel hi hrel'⟩
  | done => exact ⟨slot, h⟩
  | failed => exact ⟨slot, h⟩

theorem Sim.step {c : Cfg} {s : Sys} {slot : Nat → Slot} (h : Sim s slot) (a : Act) : ∃ slot', Sim (step c s a) slot' := by
  cases a with
  | enqueue id prio created =>
    simp only [Processor.step, Processor.enqueue]
    split
    · exact ⟨slot, h.heap, h.trace.snoc (o := .full id) ⟨rfl, rfl⟩, h.rel⟩
    · split
      · exact ⟨slot, h.heap, h.trace, h.rel⟩
      · exact ⟨slot, h.heap, h.trace.snoc (o := .badPriority id) ⟨rfl, rfl⟩, h.rel⟩
      · split
        · exact ⟨slot, h.heap, h.trace, h.rel⟩
        · exact ⟨slot, h.heap, h.trace.snoc (o := .missing id) ⟨rfl, rfl⟩, h.rel⟩
  | enqPut k =>
    simp only [Processor.step, Processor.enqPut]
    split
    · exact ⟨slot, h⟩
    · next e _ =>
      exact ⟨slot, Heapq.push_heap entryOrder h.heap e, h.trace.snoc (o := .enq e) ⟨Heapq.push_perm entryLt s.queue e, rfl⟩, h.rel⟩
  | process =>
    refine ⟨slot, h.heap, h.trace, ?_⟩
    intro j
    show Rel (s.calls ++ [({} : Call)])[j]? (slot j)
    have hj := h.rel j
    rw [List.getElem?_append]
    split
    · exact hj
    · next hlt =>
      rw [List.getElem?_eq_none (by omega)] at hj
      have hj' : slot j = .free := hj
      rw [hj']
      cases hk : j - s.calls.length with
      | zero => exact rfl
      | succ k => exact rfl
  | go i found perm =>
    simp only [Processor.step]
    split
    · exact ⟨slot, h⟩
    · next cl hi => exact h.advance hi found perm
  | cancel i =>
    simp only [Processor.step]
    split
    · exact ⟨slot, h⟩
    · next cl hi =>
      split
      · exact ⟨slot, h⟩
      · exact ⟨slot, h.heap, h.trace, rel_set_same h.rel hi trivial⟩
  | stop => exact ⟨slot, h.heap, h.trace.snoc (o := .stop) ⟨rfl, rfl⟩, h.rel⟩
  | forget id => exact ⟨slot, h.heap, h.trace.snoc (o := .forget id) ⟨rfl, rfl⟩, h.rel⟩

theorem sim_init (c : Cfg) : Sim (init c) (fun _ => .free) := ⟨Heapq.heap_nil _, rfl, fun j => by simp [init, Rel]⟩

theorem Sim.run {c : Cfg} (as : List Act) {s : Sys} {slot : Nat → Slot} (h : Sim s slot) : ∃ slot', Sim (run c s as) slot' := by
  induction as generalizing s slot with
  | nil => exact ⟨slot, h⟩
  | cons a as ih =>
    obtain ⟨slot', h'⟩ := h.step (c := c) a
    exact ih h'

/-- C26.  In every history of concurrent `enqueue()`, `process()`, `stop()`, clean-up and cancellation steps, with every permission
oracle: what happens is a permitted history (`TStep`).  So each queue entry taken is started at most once, only when granted, or
skipped, aborted or put back; entries not taken stay in the queue. -/
theorem C26_history (c : Cfg) (as : List Act) :
    ∃ slot, Steps start (run c (init c) as).log ⟨(run c (init c) as).queue, slot⟩ := by
  obtain ⟨slot, h⟩ := (sim_init c).run (c := c) as
  exact ⟨slot, h.trace⟩

/-- No observation that adds an entry to the queue. -/
def NoAdd (l : List Obs) : Prop := ∀ o ∈ l, (∀ e, o ≠ .enq e) ∧ (∀ i e, o ≠ .requeue i e)

theorem bag_subset {a c : St} {l : List Obs} (h : Steps a l c) (hn : NoAdd l) : ∀ y ∈ c.bag, y ∈ a.bag := by
  induction l generalizing a with
  | nil => cases h; exact fun y hy => hy
  | cons o l ih =>
    obtain ⟨b, hb, hs⟩ := h
    have h1 := ih hs (fun o ho => hn o (List.mem_cons_of_mem _ ho))
    have ho := hn o List.mem_cons_self
    intro y hy
    have hy := h1 y hy
    cases o with
    | enq e => exact absurd rfl (ho.1 e)
    | requeue i e => exact absurd rfl (ho.2 i e)
    | take i e => exact hb.1.symm.subset (List.mem_cons_of_mem _ hy)
    | skip i id => obtain ⟨p, -, h2, -⟩ := hb; rw [h2] at hy; exact hy
    | grant i id => obtain ⟨p, -, h2, -⟩ := hb; rw [h2] at hy; exact hy
    | deny i id => obtain ⟨p, -, h2, -⟩ := hb; rw [h2] at hy; exact hy
    | abort i id => obtain ⟨p, -, h2, -⟩ := hb; rw [h2] at hy; exact hy
    | aborted i id => obtain ⟨p, -, h2, -⟩ := hb; rw [h2] at hy; exact hy
    | start i e => rw [hb.2.1] at hy; exact hy
    | full id => rw [hb.1] at hy; exact hy
    | badPriority id => rw [hb.1] at hy; exact hy
    | missing id => rw [hb.1] at hy; exact hy
    | reset i => rw [hb.1] at hy; exact hy
    | stop => rw [hb.1] at hy; exact hy
    | forget id => rw [hb.1] at hy; exact hy

/-- Order of processing: smaller priority number first, then smaller id. -/
def before (a b : Entry) : Prop := a.1 < b.1 ∨ (a.1 = b.1 ∧ a.2 ≤ b.2)

theorem before_of {a b : Entry} (h : entryLt b a = false) : before a b := by
  simp only [entryLt, Bool.or_eq_false_iff, Bool.and_eq_false_iff, decide_eq_false_iff_not] at h
  unfold before
  omega

/-- C27.  In every history, two entries taken without an insertion in between are taken in order of (priority, id); in particular a
`process()` call during which nothing is enqueued takes, hence starts, its events in order. -/
theorem C27_order (c : Cfg) (as : List Act) (l1 l2 l3 : List Obs) (i j : Nat) (e e' : Entry)
    (hl : (run c (init c) as).log = l1 ++ .take i e :: l2 ++ .take j e' :: l3) (hn : NoAdd l2) : before e e' := by
  obtain ⟨slot, h⟩ := C26_history c as
  rw [hl, List.append_assoc] at h
  obtain ⟨b1, -, h1⟩ := Steps.append.1 h
  obtain ⟨b2, ht, h2⟩ := h1
  obtain ⟨b3, h3, h4⟩ := Steps.append.1 h2
  obtain ⟨b4, ht', -⟩ := h4
  have hm : e' ∈ b3.bag := ht'.1.symm.subset List.mem_cons_self
  exact before_of (ht.2.1 e' (ht.1.symm.subset (List.mem_cons_of_mem _ (bag_subset h3 hn e' hm))))

/-- C27.  An event is started only after it was taken by the same call, and at that moment no queued entry was smaller: whatever is started, no
entry that was waiting when it was chosen precedes it. -/
theorem C27_minimal (c : Cfg) (as : List Act) (l1 l3 : List Obs) (i : Nat) (e : Entry)
    (hl : (run c (init c) as).log = l1 ++ .take i e :: l3) :
    ∃ b, Steps start l1 b ∧ e ∈ b.bag ∧ ∀ y ∈ b.bag, before e y := by
  obtain ⟨slot, h⟩ := C26_history c as
  rw [hl] at h
  obtain ⟨b1, h0, h1⟩ := Steps.append.1 h
  obtain ⟨b2, ht, -⟩ := h1
  exact ⟨b1, h0, ht.1.symm.subset List.mem_cons_self, fun y hy => before_of (ht.2.1 y hy)⟩

/-- The call has taken `e` and not disposed of it. -/
def Has (a : St) (i : Nat) (e : Entry) : Prop := a.slot i = .holding e ∨ a.slot i = .granted e

theorem has_put {a : St} {f : Nat → Slot} {i j : Nat} {x : Slot} {e : Entry} (hf : a.slot = put f j x) (h : Has a i e) :
    (i = j ∧ (x = .holding e ∨ x = .granted e)) ∨ (f i = .holding e ∨ f i = .granted e) := by
  unfold Has at h
  rw [hf] at h
  by_cases hij : i = j
  · subst hij; rw [put_self] at h; exact .inl ⟨rfl, h⟩
  · simp only [put, hij, if_false] at h; exact .inr h

theorem has_taken {a c : St} {l : List Obs} (h : Steps a l c) (i : Nat) (e : Entry) (hs : Has c i e) :
    .take i e ∈ l ∨ Has a i e := by
  induction l generalizing a with
  | nil => cases h; exact .inr hs
  | cons o l ih =>
    obtain ⟨b, hb, hst⟩ := h
    rcases ih hst with h1 | h1
    · exact .inl (List.mem_cons_of_mem _ h1)
    · have hfree : ∀ {j : Nat}, b.slot = put a.slot j .free → Has a i e := by
        intro j hj
        rcases has_put hj h1 with ⟨-, h2 | h2⟩ | h2
        · cases h2
        · cases h2
        · exact h2
      have hsame : b.slot = a.slot → Has a i e := fun hj => by unfold Has at h1 ⊢; rwa [hj] at h1
      cases o with
      | enq e' => exact .inr (hsame hb.2)
      | take j e' =>
        rcases has_put hb.2.2.2 h1 with ⟨rfl, h2 | h2⟩ | h2
        · cases h2; exact .inl List.mem_cons_self
        · cases h2
        · exact .inr h2
      | skip j id => obtain ⟨p, -, -, h2⟩ := hb; exact .inr (hfree h2)
      | grant j id =>
        obtain ⟨p, h3, -, h2⟩ := hb
        rcases has_put h2 h1 with ⟨rfl, h2 | h2⟩ | h2
        · cases h2
        · cases h2; exact .inr (.inl h3)
        · exact .inr h2
      | deny j id =>
        obtain ⟨p, -, -, h2⟩ := hb
        rcases has_put h2 h1 with ⟨-, h2 | h2⟩ | h2
        · cases h2
        · cases h2
        · exact .inr h2
      | abort j id =>
        obtain ⟨p, -, -, h2⟩ := hb
        rcases has_put h2 h1 with ⟨-, h2 | h2⟩ | h2
        · cases h2
        · cases h2
        · exact .inr h2
      | aborted j id => obtain ⟨p, -, -, h2⟩ := hb; exact .inr (hfree h2)
      | start j e' => exact .inr (hfree hb.2.2)
      | requeue j e' => obtain ⟨p, -, -, -, h2⟩ := hb; exact .inr (hfree h2)
      | full id => exact .inr (hsame hb.2)
      | badPriority id => exact .inr (hsame hb.2)
      | missing id => exact .inr (hsame hb.2)
      | reset id => exact .inr (hsame hb.2)
      | stop => exact .inr (hsame hb.2)
      | forget id => exact .inr (hsame hb.2)

/-- C27.  Every started event was taken (by the same call, under the same priority) before. -/
theorem C27_started_was_taken (c : Cfg) (as : List Act) (l1 l2 : List Obs) (i : Nat) (e : Entry)
    (hl : (run c (init c) as).log = l1 ++ .start i e :: l2) : .take i e ∈ l1 := by
  obtain ⟨slot, h⟩ := C26_history c as
  rw [hl] at h
  obtain ⟨b, h1, b', ht, -⟩ := Steps.append.1 h
  rcases has_taken h1 i e (.inr ht.1) with h2 | h2 | h2
  · exact h2
  · cases h2
  · cases h2

/-! ### C26: capacity -/

theorem starts_snoc (i : Nat) (l : List Obs) (o : Obs) (h : isStart i o = false) : starts i (l ++ [o]) = starts i l := by
  unfold starts
  rw [List.filter_append, List.length_append, List.filter_cons_of_neg (by simp [h])]
  rfl

theorem starts_snoc_self (i : Nat) (l : List Obs) (e : Entry) : starts i (l ++ [.start i e]) = starts i l + 1 := by
  simp [starts, isStart]

/-- The call is between the loop test and the next. -/
def PC.inLoop : PC → Bool
  | .getting => true
  | .asking _ => true
  | .granted _ => true
  | _ => false

structure CapInv (c : Cfg) (s : Sys) : Prop where
  nonneg : 0 ≤ s.cap
  le : s.cap ≤ c.queueCapacity
  count : ∀ (i : Nat) cl, s.calls[i]? = some cl → starts i s.log = cl.processed
  none : ∀ i : Nat, s.calls.length ≤ i → starts i s.log = 0
  bound : ∀ (i : Nat) cl, s.calls[i]? = some cl → (cl.processed : Int) ≤ c.queueCapacity
  active : ∀ (i : Nat) cl, s.calls[i]? = some cl → cl.ended = false → (cl.processed : Int) + s.cap ≤ c.queueCapacity
  inLoop : ∀ (i : Nat) cl, s.calls[i]? = some cl → cl.pc.inLoop = true → 1 ≤ s.cap
  unique : ∀ (i j : Nat) cl cl', s.calls[i]? = some cl → s.calls[j]? = some cl' → cl.ended = false → cl'.ended = false → i = j

theorem ended_of_inLoop {cl : Call} (h : cl.pc.inLoop = true) : cl.ended = false := by
  unfold Call.ended
  cases hpc : cl.pc <;> simp [hpc, PC.inLoop] at h ⊢

theorem CapInv.update {c : Cfg} {s : Sys} (h : CapInv c s) {i : Nat} {cl : Call} (hi : s.calls[i]? = some cl)
    (ha : cl.ended = false) (cl' : Call) (cap' : Int) (log' : List Obs) (q : List Entry) (d : Dict Nat Nat)
    (hlog : starts i log' = cl'.processed) (hother : ∀ j, j ≠ i → starts j log' = starts j s.log)
    (h0 : 0 ≤ cap') (hq : cap' ≤ c.queueCapacity) (hb : (cl'.processed : Int) ≤ c.queueCapacity)
    (hact : cl'.ended = false → (cl'.processed : Int) + cap' ≤ c.queueCapacity)
    (hin : cl'.pc.inLoop = true → 1 ≤ cap') :
    CapInv c { s with queue := q, cap := cap', denials := d, calls := s.calls.set i cl', log := log' } := by
  have hlt : i < s.calls.length := (List.getElem?_eq_some_iff.1 hi).1
  have key : ∀ (j : Nat) x, (s.calls.set i cl')[j]? = some x → (j = i ∧ x = cl') ∨ (j ≠ i ∧ s.calls[j]? = some x) := by
    intro j x hx
    rw [List.getElem?_set] at hx
    by_cases hij : i = j
    · subst hij
      simp only [if_true, hlt, Option.some.injEq] at hx
      exact .inl ⟨rfl, hx.symm⟩
    · simp only [hij, if_false] at hx
      exact .inr ⟨fun e => hij e.symm, hx⟩
  have hother' : ∀ (j : Nat) x, j ≠ i → s.calls[j]? = some x → x.ended = true := by
    intro j x hj hx
    cases hxe : x.ended with
    | true => rfl
    | false => exact absurd (h.unique j i x cl hx hi hxe ha) hj
  refine ⟨h0, hq, ?_, ?_, ?_, ?_, ?_, ?_⟩
  · intro j x hx
    rcases key j x hx with ⟨rfl, rfl⟩ | ⟨hj, hx⟩
    · exact hlog
    · show starts j log' = _
      rw [hother j hj]; exact h.count j x hx
  · intro j hj
    have hj' : s.calls.length ≤ j := by simpa using hj
    show starts j log' = _
    rw [hother j (by omega)]; exact h.none j hj'
  · intro j x hx
    rcases key j x hx with ⟨rfl, rfl⟩ | ⟨hj, hx⟩
    · exact hb
    · exact h.bound j x hx
  · intro j x hx hxe
    rcases key j x hx with ⟨rfl, rfl⟩ | ⟨hj, hx⟩
    · exact hact hxe
    · rw [hother' j x hj hx] at hxe; cases hxe
  · intro j x hx hxi
    rcases key j x hx with ⟨rfl, rfl⟩ | ⟨hj, hx⟩
    · exact hin hxi
    · have := hother' j x hj hx; rw [ended_of_inLoop hxi] at this; cases this
  · intro j k x y hx hy hxe hye
    rcases key j x hx with ⟨rfl, rfl⟩ | ⟨hj, hx⟩
    · rcases key k y hy with ⟨rfl, rfl⟩ | ⟨hk, hy⟩
      · rfl
      · rw [hother' k y hk hy] at hye; cases hye
    · rw [hother' j x hj hx] at hxe; cases hxe

theorem CapInv.advance {c : Cfg} {s : Sys} (h : CapInv c s) {i : Nat} {cl : Call} (hi : s.calls[i]? = some cl)
    (found : Bool) (perm : Perm) : CapInv c (advance c s i cl found perm) := by
  have hcount := h.count i cl hi
  have hb := h.bound i cl hi
  have h0 := h.nonneg
  have hle := h.le
  have hact := h.active i cl hi
  have hin := h.inLoop i cl hi
  unfold Processor.advance
  cases hpc : cl.pc with
  | check =>
    have ha : cl.ended = false := by simp [Call.ended, hpc]
    simp only
    split
    · next hc => exact h.update hi ha _ _ _ _ _ hcount (fun _ _ => rfl) h0 hle hb (fun _ => hact ha) (fun _ => by omega)
    · exact h.update hi ha _ _ _ _ _ hcount (fun _ _ => rfl) h0 hle hb (fun _ => hact ha) (fun hx => by cases hx)
  | getting =>
    have ha : cl.ended = false := by simp [Call.ended, hpc]
    have hin := hin (by simp [hpc, PC.inLoop])
    simp only
    cases hq : Heapq.pop entryLt s.queue with
    | none => exact h
    | some r =>
      obtain ⟨e, q⟩ := r
      simp only
      split
      · refine h.update hi ha _ _ _ _ _ ?_ (fun j _ => starts_snoc j _ _ rfl) h0 hle hb (fun _ => hact ha) (fun _ => hin)
        rw [starts_snoc i _ _ rfl]; exact hcount
      · refine h.update hi ha { cl with pc := .check } _ (s.log ++ [.take i e] ++ [.skip i e.2]) _ _ ?_ (fun j _ => ?_) h0 hle hb (fun _ => hact ha)
          (fun hx => by cases hx)
        · rw [starts_snoc i _ _ rfl, starts_snoc i _ _ rfl]; exact hcount
        · rw [starts_snoc j _ _ rfl, starts_snoc j _ _ rfl]
  | asking e =>
    have ha : cl.ended = false := by simp [Call.ended, hpc]
    have hin := hin (by simp [hpc, PC.inLoop])
    simp only
    cases perm with
    | grant =>
      refine h.update hi ha _ _ _ _ _ ?_ (fun j _ => starts_snoc j _ _ rfl) h0 hle hb (fun _ => hact ha) (fun _ => hin)
      rw [starts_snoc i _ _ rfl]; exact hcount
    | deny =>
      simp only [Processor.deny]
      split
      · refine h.update hi ha { cl with pc := .aborting e } _ (s.log ++ [.deny i e.2] ++ [.abort i e.2]) _ _ ?_ (fun j _ => ?_) h0 hle hb (fun _ => hact ha)
          (fun hx => by cases hx)
        · rw [starts_snoc i _ _ rfl, starts_snoc i _ _ rfl]; exact hcount
        · rw [starts_snoc j _ _ rfl, starts_snoc j _ _ rfl]
      · refine h.update hi ha _ _ _ _ _ ?_ (fun j _ => starts_snoc j _ _ rfl) h0 hle hb (fun _ => hact ha) (fun hx => by cases hx)
        rw [starts_snoc i _ _ rfl]; exact hcount
    | raise =>
      exact h.update hi ha _ _ _ _ _ hcount (fun _ _ => rfl) h0 hle hb (fun hx => by cases hx) (fun hx => by cases hx)
  | granted e =>
    have ha : cl.ended = false := by simp [Call.ended, hpc]
    have hin := hin (by simp [hpc, PC.inLoop])
    have hact := hact ha
    refine h.update hi ha { processed := cl.processed + 1, pc := .check } (s.cap - 1) (s.log ++ [.start i e]) _ _ ?_
      (fun j hj => starts_snoc j _ _ ?_) (by omega) (by omega) (by simp; omega)
      (fun _ => by simp; omega) (fun hx => by cases hx)
    · rw [starts_snoc_self, hcount]
    · simp only [isStart, beq_eq_false_iff_ne]; exact fun e => hj e.symm
  | aborting e =>
    have ha : cl.ended = false := by simp [Call.ended, hpc]
    refine h.update hi ha _ _ _ _ _ ?_ (fun j _ => starts_snoc j _ _ rfl) h0 hle hb (fun _ => hact ha) (fun hx => by cases hx)
    rw [starts_snoc i _ _ rfl]; exact hcount
  | requeueing e n =>
    have ha : cl.ended = false := by simp [Call.ended, hpc]
    refine h.update hi ha _ _ _ _ _ ?_ (fun j _ => starts_snoc j _ _ rfl) h0 hle hb (fun _ => hact ha) (fun hx => by cases hx)
    rw [starts_snoc i _ _ rfl]; exact hcount
  | draining =>
    have ha : cl.ended = false := by simp [Call.ended, hpc]
    simp only
    split
    · refine h.update hi ha { cl with pc := .done } c.queueCapacity (s.log ++ [.reset i]) _ _ ?_
        (fun j _ => starts_snoc j _ _ rfl) (by omega) (Int.le_refl _) hb (fun hx => by cases hx) (fun hx => by cases hx)
      rw [starts_snoc i _ _ rfl]; exact hcount
    · exact h.update hi ha _ _ _ _ _ hcount (fun _ _ => rfl) h0 hle hb (fun hx => by cases hx) (fun hx => by cases hx)
  | done => exact h
  | failed => exact h

/-- Steps that touch neither the calls nor the capacity nor log a start. -/
theorem CapInv.same {c : Cfg} {s s' : Sys} (h : CapInv c s) (hc : s'.calls = s.calls) (hcap : s'.cap = s.cap)
    (hs : ∀ i, starts i s'.log = starts i s.log) : CapInv c s' := by
  refine ⟨by rw [hcap]; exact h.nonneg, by rw [hcap]; exact h.le, ?_, ?_, ?_, ?_, ?_, ?_⟩
  · intro i cl hi; rw [hc] at hi; rw [hs]; exact h.count i cl hi
  · intro i hi; rw [hc] at hi; rw [hs]; exact h.none i hi
  · intro i cl hi; rw [hc] at hi; exact h.bound i cl hi
  · intro i cl hi; rw [hc] at hi; rw [hcap]; exact h.active i cl hi
  · intro i cl hi; rw [hc] at hi; rw [hcap]; exact h.inLoop i cl hi
  · intro i j x y hi hj; rw [hc] at hi hj; exact h.unique i j x y hi hj

theorem CapInv.seqStep {c : Cfg} (hv : c.Valid) {s : Sys} (h : CapInv c s) (a : Act) : CapInv c (seqStep c s a) := by
  cases a with
  | enqueue id prio created =>
    simp only [Processor.seqStep, Processor.step, Processor.enqueue]
    split
    · exact h.same rfl rfl (fun i => starts_snoc i _ _ rfl)
    · split
      · exact h.same rfl rfl (fun i => rfl)
      · exact h.same rfl rfl (fun i => starts_snoc i _ _ rfl)
      · split
        · exact h.same rfl rfl (fun i => rfl)
        · exact h.same rfl rfl (fun i => starts_snoc i _ _ rfl)
  | enqPut k =>
    simp only [Processor.seqStep, Processor.step, Processor.enqPut]
    split
    · exact h
    · exact h.same rfl rfl (fun i => starts_snoc i _ _ rfl)
  | process =>
    simp only [Processor.seqStep]
    split
    · next hall =>
      have hended : ∀ (j : Nat) x, s.calls[j]? = some x → x.ended = true := fun j x hx =>
        List.all_eq_true.1 hall x (List.mem_of_getElem? hx)
      have key : ∀ (j : Nat) x, (s.calls ++ [({} : Call)])[j]? = some x → s.calls[j]? = some x ∨ (j = s.calls.length ∧ x = {}) := by
        intro j x hx
        rw [List.getElem?_append] at hx
        split at hx
        · exact .inl hx
        · next hlt =>
          right
          cases hk : j - s.calls.length with
          | zero => rw [hk] at hx; simp at hx; exact ⟨by omega, hx.symm⟩
          | succ k => rw [hk] at hx; simp at hx
      refine ⟨h.nonneg, h.le, ?_, ?_, ?_, ?_, ?_, ?_⟩
      · intro j x hx
        rcases key j x hx with hx | ⟨rfl, rfl⟩
        · exact h.count j x hx
        · exact h.none _ (Nat.le_refl _)
      · intro j hj
        have : s.calls.length + 1 ≤ j := by simpa [Processor.step] using hj
        exact h.none j (by omega)
      · intro j x hx
        rcases key j x hx with hx | ⟨rfl, rfl⟩
        · exact h.bound j x hx
        · have := hv.1; simp; omega
      · intro j x hx hxe
        rcases key j x hx with hx | ⟨rfl, rfl⟩
        · exact h.active j x hx hxe
        · have := h.le; simp [Processor.step]; omega
      · intro j x hx hxi
        rcases key j x hx with hx | ⟨rfl, rfl⟩
        · exact h.inLoop j x hx hxi
        · cases hxi
      · intro j k x y hx hy hxe hye
        rcases key j x hx with hx | ⟨rfl, rfl⟩
        · rw [hended j x hx] at hxe; cases hxe
        · rcases key k y hy with hy | ⟨rfl, rfl⟩
          · rw [hended k y hy] at hye; cases hye
          · rfl
    · exact h
  | go i found perm =>
    simp only [Processor.seqStep, Processor.step]
    split
    · exact h
    · next cl hi => exact h.advance hi found perm
  | cancel i =>
    simp only [Processor.seqStep, Processor.step]
    split
    · exact h
    · next cl hi =>
      split
      · exact h
      · next hne =>
        exact h.update hi (Bool.eq_false_iff.2 hne) _ _ _ _ _ (h.count i cl hi) (fun _ _ => rfl) h.nonneg h.le (h.bound i cl hi)
          (fun hx => by cases hx) (fun hx => by cases hx)
  | stop => exact h.same rfl rfl (fun i => starts_snoc i _ _ rfl)
  | forget id => exact h.same rfl rfl (fun i => starts_snoc i _ _ rfl)

theorem capInv_init {c : Cfg} (hv : c.Valid) : CapInv c (init c) := by
  have := hv.1
  refine ⟨by simp [init]; omega, by simp [init], ?_, ?_, ?_, ?_, ?_, ?_⟩ <;> simp [init, starts]

theorem CapInv.seqRun {c : Cfg} (hv : c.Valid) (as : List Act) {s : Sys} (h : CapInv c s) : CapInv c (seqRun c s as) := by
  induction as generalizing s with
  | nil => exact h
  | cons a as ih => exact ih (h.seqStep hv a)

/-- C26.  Without overlapping `process()` calls (but with arbitrary concurrent `enqueue`, `stop`, clean-up and cancellation), no call
starts more than `queue_capacity` events, whatever the permission oracle answers. -/
theorem C26_capacity {c : Cfg} (hv : c.Valid) (as : List Act) (i : Nat) :
    (starts i (seqRun c (init c) as).log : Int) ≤ c.queueCapacity := by
  have h := (capInv_init hv).seqRun hv as
  cases hi : (seqRun c (init c) as).calls[i]? with
  | none => rw [h.none i (List.getElem?_eq_none_iff.1 hi)]; have := hv.1; simp; omega
  | some cl => rw [h.count i cl hi]; exact h.bound i cl hi

/-- Non-vacuity of C26/C27: capacity 2, three queued events; one call starts the two most urgent ones in order and leaves the third. -/
example :
    let s := seqRun ⟨2, 10, 10⟩ (init ⟨2, 10, 10⟩)
      [.enqueue 7 (some (.finite 5)) none, .enqPut 0, .enqueue 8 (some (.finite 3)) none, .enqPut 0, .enqueue 9 none (some 4), .enqPut 0,
       .process, .go 0 true .grant, .go 0 true .grant, .go 0 true .grant, .go 0 true .grant, .go 0 true .grant, .process, .go 0 true .grant,
       .go 0 true .grant, .go 0 true .grant, .go 0 true .grant, .go 0 true .grant]
    s.log = [.enq (5, 7), .enq (3, 8), .enq (4, 9), .take 0 (3, 8), .grant 0 8, .start 0 (3, 8), .take 0 (4, 9), .grant 0 9, .start 0 (4, 9),
      .reset 0] ∧ s.queue = [(5, 7)] ∧ s.calls.length = 1 ∧ s.cap = 2 := by decide

/-! ### C91: overlapping calls -/

/-- C91 is false: with `queue_capacity = 1`, a `process()` call that overlaps another one starts two events, because the other call's end resets
the shared capacity. -/
theorem C91_overlap_violation :
    starts 0 (run ⟨1, 10, 10⟩ (init ⟨1, 10, 10⟩)
      [.enqueue 7 (some (.finite 1)) none, .enqPut 0, .enqueue 8 (some (.finite 2)) none, .enqPut 0,
       .enqueue 9 (some (.finite 3)) none, .enqPut 0,
       .process, .process,
       .go 0 true .grant, .go 1 true .grant,       -- both pass the loop test
       .go 0 true .grant, .go 1 true .grant,       -- both take an event
       .go 0 true .grant, .go 1 true .grant, .go 0 true .grant, .go 1 true .grant,  -- both are granted and start it
       .go 1 true .grant, .go 1 true .grant,       -- call 1 ends and resets the capacity
       .go 0 true .grant, .go 0 true .grant, .go 0 true .grant, .go 0 true .grant]).log = 2 := by decide

/-- Events started since the last capacity reset. -/
def sinceStep (n : Nat) : Obs → Nat
  | .start _ _ => n + 1
  | .reset _ => 0
  | _ => n

def sinceReset (l : List Obs) : Nat := l.foldl sinceStep 0

theorem sinceReset_snoc (l : List Obs) (o : Obs) : sinceReset (l ++ [o]) = sinceStep (sinceReset l) o := by simp [sinceReset]

/-- Calls between the loop test and the start of an event. -/
def busy (calls : List Call) : Nat := calls.countP (fun cl => cl.pc.inLoop)

theorem busy_le (calls : List Call) : busy calls ≤ calls.length := List.countP_le_length

theorem busy_set {calls : List Call} {i : Nat} {cl : Call} (cl' : Call) (hi : calls[i]? = some cl) :
    busy (calls.set i cl') + (if cl.pc.inLoop then 1 else 0) = busy calls + (if cl'.pc.inLoop then 1 else 0) := by
  induction calls generalizing i with
  | nil => simp at hi
  | cons x xs ih =>
    cases i with
    | zero =>
      simp only [List.getElem?_cons_zero, Option.some.injEq] at hi; subst hi
      simp only [List.set_cons_zero, busy, List.countP_cons]
      omega
    | succ i =>
      simp only [List.getElem?_cons_succ] at hi
      have := ih hi
      simp only [List.set_cons_succ, busy, List.countP_cons] at this ⊢
      omega

structure OverInv (c : Cfg) (s : Sys) : Prop where
  since : (sinceReset s.log : Int) + s.cap = c.queueCapacity
  low : 1 ≤ s.cap + s.calls.length - busy s.calls ∨ (s.calls = [] ∧ 1 ≤ s.cap)

theorem OverInv.mk' {c : Cfg} {s s' : Sys} (h : OverInv c s) (hs : sinceReset s'.log = sinceReset s.log) (hc : s'.cap = s.cap)
    (hl : s'.calls.length = s.calls.length) (hb : busy s'.calls ≤ busy s.calls) : OverInv c s' := by
  refine ⟨by rw [hs, hc]; exact h.since, ?_⟩
  rcases h.low with h1 | ⟨h1, h2⟩
  · left; rw [hc, hl]; omega
  · right
    rw [hc]
    refine ⟨?_, h2⟩
    rw [h1] at hl
    exact List.eq_nil_of_length_eq_zero hl

theorem OverInv.advance {c : Cfg} (hv : c.Valid) {s : Sys} (h : OverInv c s) {i : Nat} {cl : Call} (hi : s.calls[i]? = some cl)
    (found : Bool) (perm : Perm) : OverInv c (advance c s i cl found perm) := by
  have hlt : i < s.calls.length := (List.getElem?_eq_some_iff.1 hi).1
  have hQ := hv.1
  have hlow : 1 ≤ s.cap + s.calls.length - busy s.calls := by
    rcases h.low with h1 | ⟨h1, h2⟩
    · exact h1
    · rw [h1] at hlt; simp at hlt
  have hset : ∀ cl' : Call, (s.calls.set i cl').length = s.calls.length := fun cl' => List.length_set
  have hb : ∀ cl' : Call, cl'.pc.inLoop = false → busy (s.calls.set i cl') ≤ busy s.calls := by
    intro cl' hcl
    have := busy_set cl' hi
    rw [hcl] at this; simp at this
    omega
  have hble := busy_le s.calls
  unfold Processor.advance
  cases hpc : cl.pc with
  | check =>
    simp only
    split
    · next hc =>
      refine ⟨h.since, .inl ?_⟩
      show 1 ≤ s.cap + ((s.calls.set i _).length : Nat) - busy (s.calls.set i _)
      have := busy_le (s.calls.set i { cl with pc := .getting })
      rw [hset] at this ⊢
      omega
    · exact h.mk' rfl rfl (hset _) (hb _ rfl)
  | getting =>
    simp only
    cases hq : Heapq.pop entryLt s.queue with
    | none => exact h
    | some r =>
      obtain ⟨e, q⟩ := r
      simp only
      split
      · refine h.mk' (sinceReset_snoc _ _) rfl (hset _) ?_
        have := busy_set { cl with pc := .asking e } hi
        rw [hpc] at this
        simp [PC.inLoop] at this
        exact Nat.le_of_eq this
      · refine h.mk' ?_ rfl (hset _) (hb { cl with pc := .check } rfl)
        show sinceReset (s.log ++ [.take i e] ++ [.skip i e.2]) = _
        rw [sinceReset_snoc, sinceReset_snoc]; rfl
  | asking e =>
    simp only
    cases perm with
    | grant =>
      refine h.mk' (sinceReset_snoc _ _) rfl (hset _) ?_
      have := busy_set { cl with pc := .granted e } hi
      rw [hpc] at this
      simp [PC.inLoop] at this
      exact Nat.le_of_eq this
    | deny =>
      simp only [Processor.deny]
      split
      · refine h.mk' ?_ rfl (hset _) (hb { cl with pc := .aborting e } rfl)
        show sinceReset (s.log ++ [.deny i e.2] ++ [.abort i e.2]) = _
        rw [sinceReset_snoc, sinceReset_snoc]; rfl
      · exact h.mk' (sinceReset_snoc _ _) rfl (hset _) (hb _ rfl)
    | raise => exact h.mk' rfl rfl (hset _) (hb _ rfl)
  | granted e =>
    have hs := h.since
    have hset' := busy_set { processed := cl.processed + 1, pc := .check } hi
    rw [hpc] at hset'
    simp [PC.inLoop] at hset'
    refine ⟨?_, .inl ?_⟩
    · show ((sinceReset (s.log ++ [.start i e]) : Nat) : Int) + (s.cap - 1) = _
      rw [sinceReset_snoc]; simp only [sinceStep]; omega
    · show 1 ≤ (s.cap - 1) + ((s.calls.set i { processed := cl.processed + 1, pc := .check }).length : Nat)
        - busy (s.calls.set i { processed := cl.processed + 1, pc := .check })
      rw [hset]
      omega
  | aborting e => exact h.mk' (sinceReset_snoc _ _) rfl (hset _) (hb _ rfl)
  | requeueing e n => exact h.mk' (sinceReset_snoc _ _) rfl (hset _) (hb _ rfl)
  | draining =>
    simp only
    split
    · refine ⟨?_, .inl ?_⟩
      · show ((sinceReset (s.log ++ [.reset i]) : Nat) : Int) + c.queueCapacity = _
        rw [sinceReset_snoc]; simp [sinceStep]
      · show 1 ≤ c.queueCapacity + ((s.calls.set i { cl with pc := .done }).length : Nat) - busy (s.calls.set i { cl with pc := .done })
        have := busy_le (s.calls.set i { cl with pc := .done })
        omega
    · exact h.mk' rfl rfl (hset _) (hb _ rfl)
  | done => exact h
  | failed => exact h

theorem OverInv.step {c : Cfg} (hv : c.Valid) {s : Sys} (h : OverInv c s) (a : Act) : OverInv c (step c s a) := by
  cases a with
  | enqueue id prio created =>
    simp only [Processor.step, Processor.enqueue]
    split
    · exact h.mk' (sinceReset_snoc _ _) rfl rfl (Nat.le_refl _)
    · split
      · exact h.mk' rfl rfl rfl (Nat.le_refl _)
      · exact h.mk' (sinceReset_snoc _ _) rfl rfl (Nat.le_refl _)
      · split
        · exact h.mk' rfl rfl rfl (Nat.le_refl _)
        · exact h.mk' (sinceReset_snoc _ _) rfl rfl (Nat.le_refl _)
  | enqPut k =>
    simp only [Processor.step, Processor.enqPut]
    split
    · exact h
    · exact h.mk' (sinceReset_snoc _ _) rfl rfl (Nat.le_refl _)
  | process =>
    refine ⟨h.since, .inl ?_⟩
    show 1 ≤ s.cap + ((s.calls ++ [({} : Call)]).length : Nat) - busy (s.calls ++ [({} : Call)])
    have hb : busy (s.calls ++ [({} : Call)]) = busy s.calls := by simp [busy, PC.inLoop]
    rw [hb, List.length_append]
    simp only [List.length_singleton]
    rcases h.low with h1 | ⟨h1, h2⟩
    · omega
    · rw [h1]; simp [busy]; omega
  | go i found perm =>
    simp only [Processor.step]
    split
    · exact h
    · next cl hi => exact h.advance hv hi found perm
  | cancel i =>
    simp only [Processor.step]
    split
    · exact h
    · next cl hi =>
      split
      · exact h
      · refine h.mk' rfl rfl List.length_set ?_
        have := busy_set { cl with pc := .failed } hi
        simp [PC.inLoop] at this
        show busy (s.calls.set i { cl with pc := .failed }) ≤ _
        omega
  | stop => exact h.mk' (sinceReset_snoc _ _) rfl rfl (Nat.le_refl _)
  | forget id => exact h.mk' (sinceReset_snoc _ _) rfl rfl (Nat.le_refl _)

theorem OverInv.run {c : Cfg} (hv : c.Valid) (as : List Act) {s : Sys} (h : OverInv c s) : OverInv c (run c s as) := by
  induction as generalizing s with
  | nil => exact h
  | cons a as ih => exact ih (h.step hv a)

/-- C91 (partial).  With any number `N ≥ 1` of overlapping `process()` calls, at most `queue_capacity + N - 1` events are started between two
capacity resets (by all calls together).  The per-call bound of the claim is false (`C91_overlap_violation`). -/
theorem C91_overlap_partial {c : Cfg} (hv : c.Valid) (as : List Act) (hN : (run c (init c) as).calls ≠ []) :
    (sinceReset (run c (init c) as).log : Int) ≤ c.queueCapacity + (run c (init c) as).calls.length - 1 := by
  have h0 : OverInv c (init c) := by
    have := hv.1
    exact ⟨by simp [init, sinceReset], .inr ⟨rfl, this⟩⟩
  have h := h0.run hv as
  have hs := h.since
  rcases h.low with h1 | ⟨h1, -⟩
  · omega
  · exact absurd h1 hN

/-! ### C92: failed calls -/

/-- With the capacity used up and no call in progress, no schedule ever starts an event again: `process()` leaves the loop at once and resets the capacity
only if it started something. -/
structure Stalled (s : Sys) (log : List Obs) : Prop where
  cap : s.cap ≤ 0
  calls : ∀ cl ∈ s.calls, cl.pc = .check ∧ cl.processed = 0 ∨ cl.pc = .draining ∧ cl.processed = 0 ∨ cl.ended = true
  log : ∀ i e, Obs.start i e ∈ s.log → .start i e ∈ log

theorem mem_set {α : Type} {l : List α} {i : Nat} {x y : α} (h : y ∈ l.set i x) : y ∈ l ∨ y = x := by
  rcases List.mem_or_eq_of_mem_set h with h | h
  · exact .inl h
  · exact .inr h

theorem Stalled.same {s s' : Sys} {log : List Obs} (h : Stalled s log) (hc : s'.cap ≤ 0) (hcl : ∀ cl ∈ s'.calls, cl ∈ s.calls ∨
    (cl.pc = .check ∧ cl.processed = 0 ∨ cl.pc = .draining ∧ cl.processed = 0 ∨ cl.ended = true))
    (hl : ∀ i e, Obs.start i e ∈ s'.log → .start i e ∈ s.log) : Stalled s' log := by
  refine ⟨hc, ?_, fun i e hm => h.log i e (hl i e hm)⟩
  intro cl hm
  rcases hcl cl hm with h1 | h1
  · exact h.calls cl h1
  · exact h1

theorem Stalled.step {c : Cfg} {s : Sys} {log : List Obs} (h : Stalled s log) (a : Act) : Stalled (step c s a) log := by
  have snoc : ∀ {o : Obs}, (∀ i e, o ≠ .start i e) → ∀ i e, Obs.start i e ∈ s.log ++ [o] → .start i e ∈ s.log := by
    intro o ho i e hm
    rcases List.mem_append.1 hm with hm | hm
    · exact hm
    · exact absurd (List.mem_singleton.1 hm).symm (ho i e)
  cases a with
  | enqueue id prio created =>
    simp only [Processor.step, Processor.enqueue]
    split
    · exact h.same h.cap (fun _ => .inl) (snoc (by simp))
    · split
      · exact h.same h.cap (fun _ => .inl) (fun _ _ hm => hm)
      · exact h.same h.cap (fun _ => .inl) (snoc (by simp))
      · split
        · exact h.same h.cap (fun _ => .inl) (fun _ _ hm => hm)
        · exact h.same h.cap (fun _ => .inl) (snoc (by simp))
  | enqPut k =>
    simp only [Processor.step, Processor.enqPut]
    split
    · exact h
    · exact h.same h.cap (fun _ => .inl) (snoc (by simp))
  | process =>
    refine h.same h.cap ?_ (fun _ _ hm => hm)
    intro cl hm
    rcases List.mem_append.1 hm with hm | hm
    · exact .inl hm
    · rw [List.mem_singleton.1 hm]; exact .inr (.inl ⟨rfl, rfl⟩)
  | go i found perm =>
    simp only [Processor.step]
    split
    · exact h
    · next cl hi =>
      unfold advance
      rcases h.calls cl (List.mem_of_getElem? hi) with ⟨h1, h2⟩ | ⟨h1, h2⟩ | h1
      · rw [h1]
        have hn : ¬ (0 < s.cap ∧ s.queue ≠ []) := fun hc => by have := h.cap; omega
        simp only [if_neg hn]
        refine h.same h.cap ?_ (fun _ _ hm => hm)
        intro x hx
        rcases mem_set hx with hx | rfl
        · exact .inl hx
        · exact .inr (.inr (.inl ⟨rfl, h2⟩))
      · rw [h1]
        have hn : ¬ (0 < cl.processed) := by omega
        simp only [if_neg hn]
        refine h.same h.cap ?_ (fun _ _ hm => hm)
        intro x hx
        rcases mem_set hx with hx | rfl
        · exact .inl hx
        · exact .inr (.inr (.inr rfl))
      · cases hpc : cl.pc <;> simp [Call.ended, hpc] at h1
        · exact h
        · exact h
  | cancel i =>
    simp only [Processor.step]
    split
    · exact h
    · next cl hi =>
      split
      · exact h
      · refine h.same h.cap ?_ (fun _ _ hm => hm)
        intro x hx
        rcases mem_set hx with hx | rfl
        · exact .inl hx
        · exact .inr (.inr (.inr rfl))
  | stop => exact h.same h.cap (fun _ => .inl) (snoc (by simp))
  | forget id => exact h.same h.cap (fun _ => .inl) (snoc (by simp))

theorem Stalled.run {c : Cfg} (as : List Act) {s : Sys} {log : List Obs} (h : Stalled s log) : Stalled (run c s as) log := by
  induction as generalizing s with
  | nil => exact h
  | cons a as ih => exact ih (h.step a)

/-- The schedule of `C92_stall_violation`: one event is started (`queue_capacity = 1`), then the `process()` call that waits for it
is cancelled (for example by a timeout around `forward()`). -/
def cancelled : List Act :=
  [.enqueue 7 (some (.finite 1)) none, .enqPut 0, .process, .go 0 true .grant, .go 0 true .grant, .go 0 true .grant, .go 0 true .grant,
   .go 0 true .grant, .cancel 0]

/-- C92 is false: after that cancellation the processor never starts an event again, whatever is enqueued and however often
`process()` is called. -/
theorem C92_stall_violation (as : List Act) (i : Nat) (e : Entry)
    (h : Obs.start i e ∈ (run ⟨1, 10, 10⟩ (run ⟨1, 10, 10⟩ (init ⟨1, 10, 10⟩) cancelled) as).log) : i = 0 ∧ e = (1, 7) := by
  have h0 : Stalled (run ⟨1, 10, 10⟩ (init ⟨1, 10, 10⟩) cancelled) [.start 0 (1, 7)] := by
    refine ⟨by decide, ?_, ?_⟩
    · intro cl hm
      have hcalls : (run ⟨1, 10, 10⟩ (init ⟨1, 10, 10⟩) cancelled).calls = [⟨1, .failed⟩] := by decide
      rw [hcalls, List.mem_singleton] at hm
      subst hm
      exact .inr (.inr rfl)
    · intro j e' hm
      have hlog : (run ⟨1, 10, 10⟩ (init ⟨1, 10, 10⟩) cancelled).log = [.enq (1, 7), .take 0 (1, 7), .grant 0 7, .start 0 (1, 7)] := by
        decide
      rw [hlog] at hm
      simp at hm
      simp [hm]
  have := (h0.run (c := ⟨1, 10, 10⟩) as).log i e h
  simpa using this

/-- No `process()` call is cancelled and no permission check raises. -/
def NoFail (as : List Act) : Prop := ∀ a ∈ as, (∀ i, a ≠ .cancel i) ∧ (∀ i f, a ≠ .go i f .raise)

structure FullInv (c : Cfg) (s : Sys) : Prop where
  active : ∀ (i : Nat) cl, s.calls[i]? = some cl → cl.ended = false → (cl.processed : Int) + s.cap = c.queueCapacity
  idle : (∀ (i : Nat) cl, s.calls[i]? = some cl → cl.ended = true) → s.cap = c.queueCapacity

theorem FullInv.update {c : Cfg} {s : Sys} (hc : CapInv c s) (h : FullInv c s) {i : Nat} {cl : Call} (hi : s.calls[i]? = some cl)
    (ha : cl.ended = false) (cl' : Call) (cap' : Int) (log' : List Obs) (q : List Entry) (d : Dict Nat Nat)
    (hact : cl'.ended = false → (cl'.processed : Int) + cap' = c.queueCapacity)
    (hend : cl'.ended = true → cap' = c.queueCapacity) :
    FullInv c { s with queue := q, cap := cap', denials := d, calls := s.calls.set i cl', log := log' } := by
  have hlt : i < s.calls.length := (List.getElem?_eq_some_iff.1 hi).1
  have hself : (s.calls.set i cl')[i]? = some cl' := by rw [List.getElem?_set]; simp [hlt]
  refine ⟨?_, ?_⟩
  · intro j x hx hxe
    by_cases hij : j = i
    · subst hij
      have hx' : (s.calls.set j cl')[j]? = some x := hx
      rw [hself] at hx'
      cases hx'
      exact hact hxe
    · have hx' : (s.calls.set i cl')[j]? = some x := hx
      rw [List.getElem?_set_ne (fun e => hij e.symm)] at hx'
      exact absurd (hc.unique j i x cl hx' hi hxe ha) hij
  · intro hall
    exact hend (hall i cl' hself)

theorem FullInv.same {c : Cfg} {s s' : Sys} (h : FullInv c s) (hc : s'.calls = s.calls) (hcap : s'.cap = s.cap) : FullInv c s' :=
  ⟨fun i cl hi => by rw [hc] at hi; rw [hcap]; exact h.active i cl hi, fun ha => by rw [hc] at ha; rw [hcap]; exact h.idle ha⟩

theorem FullInv.advance {c : Cfg} {s : Sys} (hc : CapInv c s) (h : FullInv c s) {i : Nat} {cl : Call} (hi : s.calls[i]? = some cl)
    (found : Bool) (perm : Perm) (hp : perm ≠ .raise) : FullInv c (advance c s i cl found perm) := by
  have hact := h.active i cl hi
  unfold Processor.advance
  cases hpc : cl.pc with
  | check =>
    have ha : cl.ended = false := by simp [Call.ended, hpc]
    simp only
    split
    · exact h.update hc hi ha _ _ _ _ _ (fun _ => hact ha) (fun hx => by cases hx)
    · exact h.update hc hi ha _ _ _ _ _ (fun _ => hact ha) (fun hx => by cases hx)
  | getting =>
    have ha : cl.ended = false := by simp [Call.ended, hpc]
    simp only
    cases hq : Heapq.pop entryLt s.queue with
    | none => exact h
    | some r =>
      obtain ⟨e, q⟩ := r
      simp only
      split
      · exact h.update hc hi ha { cl with pc := .asking e } _ _ _ _ (fun _ => hact ha) (fun hx => by cases hx)
      · exact h.update hc hi ha { cl with pc := .check } _ _ _ _ (fun _ => hact ha) (fun hx => by cases hx)
  | asking e =>
    have ha : cl.ended = false := by simp [Call.ended, hpc]
    simp only
    cases perm with
    | grant => exact h.update hc hi ha { cl with pc := .granted e } _ _ _ _ (fun _ => hact ha) (fun hx => by cases hx)
    | deny =>
      simp only [Processor.deny]
      split
      · exact h.update hc hi ha { cl with pc := .aborting e } _ _ _ _ (fun _ => hact ha) (fun hx => by cases hx)
      · exact h.update hc hi ha { cl with pc := .requeueing e _ } _ _ _ _ (fun _ => hact ha) (fun hx => by cases hx)
    | raise => exact absurd rfl hp
  | granted e =>
    have ha : cl.ended = false := by simp [Call.ended, hpc]
    have := hact ha
    exact h.update hc hi ha { processed := cl.processed + 1, pc := .check } (s.cap - 1) _ _ _ (fun _ => by simp; omega)
      (fun hx => by cases hx)
  | aborting e =>
    have ha : cl.ended = false := by simp [Call.ended, hpc]
    exact h.update hc hi ha { cl with pc := .draining } _ _ _ _ (fun _ => hact ha) (fun hx => by cases hx)
  | requeueing e n =>
    have ha : cl.ended = false := by simp [Call.ended, hpc]
    exact h.update hc hi ha { cl with pc := .draining } _ _ _ _ (fun _ => hact ha) (fun hx => by cases hx)
  | draining =>
    have ha : cl.ended = false := by simp [Call.ended, hpc]
    have := hact ha
    simp only
    split
    · exact h.update hc hi ha { cl with pc := .done } c.queueCapacity _ _ _ (fun hx => by cases hx) (fun _ => rfl)
    · exact h.update hc hi ha { cl with pc := .done } _ _ _ _ (fun hx => by cases hx) (fun _ => by omega)
  | done => exact h
  | failed => exact h

theorem FullInv.seqStep {c : Cfg} {s : Sys} (hc : CapInv c s) (h : FullInv c s) (a : Act) (hf1 : ∀ i, a ≠ .cancel i)
    (hf2 : ∀ i f, a ≠ .go i f .raise) : FullInv c (seqStep c s a) := by
  cases a with
  | enqueue id prio created =>
    simp only [Processor.seqStep, Processor.step, Processor.enqueue]
    split
    · exact h.same rfl rfl
    · split
      · exact h.same rfl rfl
      · exact h.same rfl rfl
      · split
        · exact h.same rfl rfl
        · exact h.same rfl rfl
  | enqPut k =>
    simp only [Processor.seqStep, Processor.step, Processor.enqPut]
    split
    · exact h
    · exact h.same rfl rfl
  | process =>
    simp only [Processor.seqStep]
    split
    · next hall =>
      have hended : ∀ (j : Nat) x, s.calls[j]? = some x → x.ended = true := fun j x hx =>
        List.all_eq_true.1 hall x (List.mem_of_getElem? hx)
      have hcap := h.idle hended
      refine ⟨?_, fun _ => hcap⟩
      intro j x hx hxe
      have hx : (s.calls ++ [({} : Call)])[j]? = some x := hx
      rw [List.getElem?_append] at hx
      split at hx
      · rw [hended j x hx] at hxe; cases hxe
      · next hlt =>
        cases hk : j - s.calls.length with
        | zero => rw [hk] at hx; simp at hx; subst hx; simp [Processor.step, hcap]
        | succ k => rw [hk] at hx; simp at hx
    · exact h
  | go i found perm =>
    simp only [Processor.seqStep, Processor.step]
    split
    · exact h
    · next cl hi => exact h.advance hc hi found perm (fun hp => hf2 i found (by rw [hp]))
  | cancel i => exact absurd rfl (hf1 i)
  | stop => exact h.same rfl rfl
  | forget id => exact h.same rfl rfl

/-- C92 (partial).  As long as no `process()` call is cancelled and no permission check raises (and calls do not overlap), the full capacity is
available again whenever all calls have ended.  With a cancelled call the processor can stall forever (`C92_stall_violation`). -/
theorem C92_recovers_partial {c : Cfg} (hv : c.Valid) (as : List Act) (hf : NoFail as)
    (hend : ∀ cl ∈ (seqRun c (init c) as).calls, cl.ended = true) : (seqRun c (init c) as).cap = c.queueCapacity := by
  have key : ∀ (as : List Act) (s : Sys), NoFail as → CapInv c s → FullInv c s → FullInv c (seqRun c s as) := by
    intro as
    induction as with
    | nil => intro _ _ _ h; exact h
    | cons a as ih =>
      intro s hf hc h
      exact ih _ (fun b hb => hf b (List.mem_cons_of_mem _ hb)) (hc.seqStep hv a)
        (h.seqStep hc a (hf a List.mem_cons_self).1 (hf a List.mem_cons_self).2)
  have h := key as (init c) hf (capInv_init hv) ⟨by simp [init], by simp [init]⟩
  exact h.idle (fun i cl hi => hend cl (List.mem_of_getElem? hi))

/-! ### C28: denials -/

theorem tail_get? (d : Dict Nat Nat) (wf : d.WF) (k : Nat) :
    Dict.get? (d.tail : Dict Nat Nat) k = none ∨ Dict.get? (d.tail : Dict Nat Nat) k = d.get? k := by
  cases d with
  | nil => exact .inl rfl
  | cons kv d =>
    obtain ⟨a, v⟩ := kv
    simp only [List.tail_cons, Dict.get?_cons]
    by_cases h : a = k
    · subst h
      left
      rw [Dict.get?_eq_none_iff]
      simp only [Dict.WF, Dict.keys_cons, List.nodup_cons] at wf
      exact wf.1
    · right; rw [if_neg h]

theorem tail_wf {d : Dict Nat Nat} (wf : d.WF) : Dict.WF (d.tail : Dict Nat Nat) := by
  cases d with
  | nil => exact wf
  | cons kv d => simp only [Dict.WF, Dict.keys_cons, List.nodup_cons] at wf; exact wf.2

theorem evict_wf (c : Cfg) {d : Dict Nat Nat} (wf : d.WF) : (evict c d).WF := by
  unfold evict; split
  · exact tail_wf wf
  · exact wf

theorem evict_le (c : Cfg) {d : Dict Nat Nat} (wf : d.WF) (k : Nat) : ((evict c d).get? k).getD 0 ≤ (d.get? k).getD 0 := by
  unfold evict
  split
  · rcases tail_get? d wf k with h | h <;> rw [h] <;> simp
  · exact Nat.le_refl _

/-- Every decision to abort is taken when the log shows at least three denials of that event since it was last granted (or its count was dropped). -/
def AbortOK (l : List Obs) : Prop := ∀ l1 i id l2, l = l1 ++ .abort i id :: l2 → 3 ≤ den id l1

theorem snoc_split {l l1 l2 : List Obs} {o x : Obs} (h : l ++ [o] = l1 ++ x :: l2) :
    (l2 = [] ∧ l = l1 ∧ o = x) ∨ ∃ l3, l2 = l3 ++ [o] ∧ l = l1 ++ x :: l3 := by
  rcases List.eq_nil_or_concat l2 with rfl | ⟨l3, y, rfl⟩
  · left
    have := List.append_inj' h rfl
    exact ⟨rfl, this.1, by simpa using this.2⟩
  · right
    rw [List.concat_eq_append] at h ⊢
    have h' : l ++ [o] = (l1 ++ x :: l3) ++ [y] := by simpa using h
    have := List.append_inj' h' rfl
    refine ⟨l3, ?_, this.1⟩
    have h2 : o = y := by simpa using this.2
    rw [h2]

theorem AbortOK.snoc {l : List Obs} (h : AbortOK l) {o : Obs} (ho : ∀ i id, o = .abort i id → 3 ≤ den id l) : AbortOK (l ++ [o]) := by
  intro l1 i id l2 hl
  rcases snoc_split hl with ⟨-, rfl, h2⟩ | ⟨l3, -, h2⟩
  · exact ho i id h2
  · exact h l1 i id l3 h2

structure DenInv (s : Sys) : Prop where
  wf : s.denials.WF
  le : ∀ id, (s.denials.get? id).getD 0 ≤ den id s.log
  abort : AbortOK s.log

/-- A step that logs `o` and replaces the counters by `d`. -/
theorem DenInv.snoc {s s' : Sys} (h : DenInv s) (o : Obs) (hl : s'.log = s.log ++ [o]) (wf : s'.denials.WF)
    (hle : ∀ id, (s'.denials.get? id).getD 0 ≤ denStep id (den id s.log) o) (ho : ∀ i id, o ≠ .abort i id) : DenInv s' := by
  refine ⟨wf, ?_, ?_⟩
  · intro id; rw [hl, den_snoc]; exact hle id
  · rw [hl]; exact h.abort.snoc (fun i id e => absurd e (ho i id))

theorem DenInv.same {s s' : Sys} (h : DenInv s) (hl : s'.log = s.log) (hd : s'.denials = s.denials) : DenInv s' :=
  ⟨by rw [hd]; exact h.wf, by rw [hl, hd]; exact h.le, by rw [hl]; exact h.abort⟩

theorem del_le {d : Dict Nat Nat} (wf : d.WF) (id k : Nat) (n : Nat) (h : (d.get? k).getD 0 ≤ n) :
    ((d.del id).get? k).getD 0 ≤ if id = k then 0 else n := by
  rw [Dict.get?_del wf]
  by_cases hk : id = k
  · subst hk; simp
  · have hk' : ¬ k = id := fun e => hk e.symm
    simp only [hk, hk', if_false]
    exact h

theorem DenInv.advance {c : Cfg} {s : Sys} (h : DenInv s) {i : Nat} {cl : Call}
    (found : Bool) (perm : Perm) : DenInv (advance c s i cl found perm) := by
  have wf := h.wf
  unfold Processor.advance
  cases hpc : cl.pc with
  | check => simp only; split <;> exact h.same rfl rfl
  | getting =>
    simp only
    cases hq : Heapq.pop entryLt s.queue with
    | none => exact h
    | some r =>
      obtain ⟨e, q⟩ := r
      simp only
      split
      · exact h.snoc (.take i e) rfl wf h.le (by simp)
      · have h1 : DenInv (s.obs (.take i e)) := h.snoc (.take i e) rfl wf h.le (by simp)
        refine h1.snoc (.skip i e.2) rfl (Dict.del_wf wf e.2) ?_ (by simp)
        intro id
        exact del_le wf e.2 id _ (h1.le id)
  | asking e =>
    simp only
    cases perm with
    | grant => exact h.snoc (.grant i e.2) rfl (Dict.del_wf wf e.2) (fun id => del_le wf e.2 id _ (h.le id)) (by simp)
    | raise => exact h.same rfl rfl
    | deny =>
      simp only [Processor.deny]
      have hw := evict_wf c wf
      have hle : ∀ id, (((evict c s.denials).set e.2 (nextCount c s.denials e.2)).get? id).getD 0 ≤
          denStep id (den id s.log) (.deny i e.2) := by
        intro id
        rw [Dict.get?_set]
        have h1 := evict_le c wf id
        have h2 := h.le id
        simp only [denStep]
        by_cases hk : e.2 = id
        · subst hk
          simp only [if_true, Option.getD_some, nextCount]
          omega
        · have hk' : ¬ id = e.2 := fun x => hk x.symm
          simp only [hk, hk', if_false]; omega
      split
      · next hn =>
        have h1 : DenInv ({ s with denials := (evict c s.denials).set e.2 (nextCount c s.denials e.2) }.obs (.deny i e.2)) :=
          h.snoc (.deny i e.2) rfl (Dict.set_wf hw _ _) hle (by simp)
        refine ⟨h1.wf, ?_, ?_⟩
        · intro id
          show _ ≤ den id (s.log ++ [.deny i e.2] ++ [.abort i e.2])
          rw [den_snoc]; exact h1.le id
        · refine h1.abort.snoc ?_
          intro j id hj
          cases hj
          have := h1.le e.2
          have hg : (({ s with denials := (evict c s.denials).set e.2 (nextCount c s.denials e.2) }.obs (.deny i e.2)).denials.get? e.2).getD 0
              = nextCount c s.denials e.2 := by
            show (((evict c s.denials).set e.2 (nextCount c s.denials e.2)).get? e.2).getD 0 = _
            rw [Dict.get?_set]; simp
          omega
      · exact h.snoc (.deny i e.2) rfl (Dict.set_wf hw _ _) hle (by simp)
  | granted e => exact h.snoc (.start i e) rfl wf h.le (by simp)
  | aborting e => exact h.snoc (.aborted i e.2) rfl (Dict.del_wf wf e.2) (fun id => del_le wf e.2 id _ (h.le id)) (by simp)
  | requeueing e n => exact h.snoc (.requeue i (e.1 + n, e.2)) rfl wf h.le (by simp)
  | draining =>
    simp only
    split
    · exact h.snoc (.reset i) rfl wf h.le (by simp)
    · exact h.same rfl rfl
  | done => exact h
  | failed => exact h

theorem DenInv.step {c : Cfg} {s : Sys} (h : DenInv s) (a : Act) : DenInv (step c s a) := by
  have wf := h.wf
  cases a with
  | enqueue id prio created =>
    simp only [Processor.step, Processor.enqueue]
    split
    · exact h.snoc (.full id) rfl wf h.le (by simp)
    · split
      · exact h.same rfl rfl
      · exact h.snoc (.badPriority id) rfl wf h.le (by simp)
      · split
        · exact h.same rfl rfl
        · exact h.snoc (.missing id) rfl wf h.le (by simp)
  | enqPut k =>
    simp only [Processor.step, Processor.enqPut]
    split
    · exact h
    · next e _ => exact h.snoc (.enq e) rfl wf h.le (by simp)
  | process => exact h.same rfl rfl
  | go i found perm =>
    simp only [Processor.step]
    split
    · exact h
    · exact h.advance found perm
  | cancel i =>
    simp only [Processor.step]
    split
    · exact h
    · split
      · exact h
      · exact h.same rfl rfl
  | stop => exact h.snoc .stop rfl List.nodup_nil (fun _ => Nat.le_refl _) (by simp)
  | forget id => exact h.snoc (.forget id) rfl (Dict.del_wf wf id) (fun k => del_le wf id k _ (h.le k)) (by simp)

theorem DenInv.run {c : Cfg} (as : List Act) {s : Sys} (h : DenInv s) : DenInv (run c s as) := by
  induction as generalizing s with
  | nil => exact h
  | cons a as ih => exact ih (h.step a)

theorem denInv_init (c : Cfg) : DenInv (init c) := by
  refine ⟨List.nodup_nil, fun _ => Nat.le_refl _, ?_⟩
  intro l1 i id l2 h
  simp [init] at h

/-- C28.  In every history (overlapping calls, evictions, stops included) an event is aborted only after at least three denials since it was
last granted. -/
theorem C28_never_early (c : Cfg) (as : List Act) (l1 l2 : List Obs) (i id : Nat)
    (hl : (run c (init c) as).log = l1 ++ .abort i id :: l2) : 3 ≤ den id l1 :=
  ((denInv_init c).run (c := c) as).abort l1 i id l2 hl

/-- C28.  A denied entry that is put back gets a strictly larger priority value (+1 or +2), and an entry whose abort was decided is not put back by that
call: both are conditions of the permitted histories of `C26_history` (`TStep`); here for a single step of the history. -/
theorem C28_backoff (c : Cfg) (as : List Act) (l1 l2 : List Obs) (i : Nat) (e : Entry)
    (hl : (run c (init c) as).log = l1 ++ .requeue i e :: l2) :
    ∃ b p, Steps start l1 b ∧ b.slot i = .denied (p, e.2) ∧ (e.1 = p + 1 ∨ e.1 = p + 2) := by
  obtain ⟨slot, h⟩ := C26_history c as
  rw [hl] at h
  obtain ⟨b, h1, b', ⟨p, h2, h3, -⟩, -⟩ := Steps.append.1 h
  exact ⟨b, p, h1, h2, h3⟩

/-- Every third denial in a row is immediately followed by the decision to abort. -/
def DenyOK (l : List Obs) : Prop :=
  ∀ l1 i id l2, l = l1 ++ .deny i id :: l2 → 3 ≤ den id (l1 ++ [.deny i id]) → ∃ l3, l2 = .abort i id :: l3

theorem DenyOK.snoc {l : List Obs} (h : DenyOK l) {o : Obs} (ho : ∀ i id, o = .deny i id → den id (l ++ [o]) < 3) : DenyOK (l ++ [o]) := by
  intro l1 i id l2 hl hd
  rcases snoc_split hl with ⟨-, rfl, h2⟩ | ⟨l3, h2, h3⟩
  · have := ho i id h2; rw [h2] at this; omega
  · obtain ⟨l4, h4⟩ := h l1 i id l3 h3 hd
    exact ⟨l4 ++ [o], by rw [h2, h4]; rfl⟩

theorem DenyOK.snoc2 {l : List Obs} (h : DenyOK l) (i id : Nat) : DenyOK (l ++ [.deny i id] ++ [.abort i id]) := by
  intro l1 j id' l2 hl hd
  rcases snoc_split hl with ⟨-, rfl, h2⟩ | ⟨l3, h2, h3⟩
  · cases h2
  · rcases snoc_split h3 with ⟨h4, rfl, h5⟩ | ⟨l4, h4, h5⟩
    · cases h5; subst h4; exact ⟨[], by rw [h2]; rfl⟩
    · obtain ⟨l5, h6⟩ := h l1 j id' l4 h5 hd
      exact ⟨l5 ++ [.deny i id] ++ [.abort i id], by rw [h2, h4, h6]; simp⟩

structure EqInv (s : Sys) : Prop where
  wf : s.denials.WF
  eq : ∀ id, (s.denials.get? id).getD 0 = den id s.log
  deny : DenyOK s.log

theorem EqInv.snoc {s s' : Sys} (h : EqInv s) (o : Obs) (hl : s'.log = s.log ++ [o]) (wf : s'.denials.WF)
    (hle : ∀ id, (s'.denials.get? id).getD 0 = denStep id (den id s.log) o) (ho : ∀ i id, o ≠ .deny i id) : EqInv s' := by
  refine ⟨wf, ?_, ?_⟩
  · intro id; rw [hl, den_snoc]; exact hle id
  · rw [hl]; exact h.deny.snoc (fun i id e => absurd e (ho i id))

theorem EqInv.same {s s' : Sys} (h : EqInv s) (hl : s'.log = s.log) (hd : s'.denials = s.denials) : EqInv s' :=
  ⟨by rw [hd]; exact h.wf, by rw [hl, hd]; exact h.eq, by rw [hl]; exact h.deny⟩

theorem del_eq {d : Dict Nat Nat} (wf : d.WF) (id k : Nat) (n : Nat) (h : (d.get? k).getD 0 = n) :
    ((d.del id).get? k).getD 0 = if id = k then 0 else n := by
  rw [Dict.get?_del wf]
  by_cases hk : id = k
  · subst hk; simp
  · have hk' : ¬ k = id := fun e => hk e.symm
    simp only [hk, hk', if_false]
    exact h

theorem EqInv.advance {c : Cfg} {s : Sys} (h : EqInv s) (hne : s.denials.length < c.maxDenial) {i : Nat} {cl : Call}
    (found : Bool) (perm : Perm) : EqInv (advance c s i cl found perm) := by
  have wf := h.wf
  unfold Processor.advance
  cases hpc : cl.pc with
  | check => simp only; split <;> exact h.same rfl rfl
  | getting =>
    simp only
    cases hq : Heapq.pop entryLt s.queue with
    | none => exact h
    | some r =>
      obtain ⟨e, q⟩ := r
      simp only
      split
      · exact h.snoc (.take i e) rfl wf h.eq (by simp)
      · have h1 : EqInv (s.obs (.take i e)) := h.snoc (.take i e) rfl wf h.eq (by simp)
        refine h1.snoc (.skip i e.2) rfl (Dict.del_wf wf e.2) ?_ (by simp)
        intro id
        exact del_eq wf e.2 id _ (h1.eq id)
  | asking e =>
    simp only
    cases perm with
    | grant => exact h.snoc (.grant i e.2) rfl (Dict.del_wf wf e.2) (fun id => del_eq wf e.2 id _ (h.eq id)) (by simp)
    | raise => exact h.same rfl rfl
    | deny =>
      simp only [Processor.deny]
      have hev : evict c s.denials = s.denials := by unfold evict; rw [if_neg (by omega)]
      have hnc : nextCount c s.denials e.2 = den e.2 s.log + 1 := by unfold nextCount; rw [hev, h.eq]
      have hle : ∀ id, (((evict c s.denials).set e.2 (nextCount c s.denials e.2)).get? id).getD 0 =
          denStep id (den id s.log) (.deny i e.2) := by
        intro id
        rw [Dict.get?_set, hev, hnc]
        simp only [denStep]
        by_cases hk : e.2 = id
        · subst hk
          simp only [if_true, Option.getD_some]
        · have hk' : ¬ id = e.2 := fun x => hk x.symm
          simp only [hk, hk', if_false]; exact h.eq id
      have hw : ((evict c s.denials).set e.2 (nextCount c s.denials e.2)).WF := Dict.set_wf (evict_wf c wf) _ _
      split
      · refine ⟨hw, ?_, h.deny.snoc2 i e.2⟩
        intro id
        show _ = den id (s.log ++ [.deny i e.2] ++ [.abort i e.2])
        rw [den_snoc, den_snoc]; exact hle id
      · next hn =>
        refine ⟨hw, ?_, h.deny.snoc ?_⟩
        · intro id
          show _ = den id (s.log ++ [.deny i e.2])
          rw [den_snoc]; exact hle id
        · intro j id hj
          cases hj
          rw [den_snoc]
          simp only [denStep, if_true]
          omega
  | granted e => exact h.snoc (.start i e) rfl wf h.eq (by simp)
  | aborting e => exact h.snoc (.aborted i e.2) rfl (Dict.del_wf wf e.2) (fun id => del_eq wf e.2 id _ (h.eq id)) (by simp)
  | requeueing e n => exact h.snoc (.requeue i (e.1 + n, e.2)) rfl wf h.eq (by simp)
  | draining =>
    simp only
    split
    · exact h.snoc (.reset i) rfl wf h.eq (by simp)
    · exact h.same rfl rfl
  | done => exact h
  | failed => exact h

theorem EqInv.step {c : Cfg} {s : Sys} (h : EqInv s) (hne : s.denials.length < c.maxDenial) (a : Act) : EqInv (step c s a) := by
  have wf := h.wf
  cases a with
  | enqueue id prio created =>
    simp only [Processor.step, Processor.enqueue]
    split
    · exact h.snoc (.full id) rfl wf h.eq (by simp)
    · split
      · exact h.same rfl rfl
      · exact h.snoc (.badPriority id) rfl wf h.eq (by simp)
      · split
        · exact h.same rfl rfl
        · exact h.snoc (.missing id) rfl wf h.eq (by simp)
  | enqPut k =>
    simp only [Processor.step, Processor.enqPut]
    split
    · exact h
    · next e _ => exact h.snoc (.enq e) rfl wf h.eq (by simp)
  | process => exact h.same rfl rfl
  | go i found perm =>
    simp only [Processor.step]
    split
    · exact h
    · exact h.advance hne found perm
  | cancel i =>
    simp only [Processor.step]
    split
    · exact h
    · split
      · exact h
      · exact h.same rfl rfl
  | stop => exact h.snoc .stop rfl List.nodup_nil (fun _ => rfl) (by simp)
  | forget id => exact h.snoc (.forget id) rfl (Dict.del_wf wf id) (fun k => del_eq wf id k _ (h.eq k)) (by simp)

/-- The number of tracked denial counts stays below `max_denial_tracking`. -/
def NoEvict (c : Cfg) (s : Sys) (as : List Act) : Prop := ∀ n, (run c s (as.take n)).denials.length < c.maxDenial

theorem EqInv.run {c : Cfg} (as : List Act) {s : Sys} (h : EqInv s) (hne : NoEvict c s as) : EqInv (run c s as) := by
  induction as generalizing s with
  | nil => exact h
  | cons a as ih => exact ih (h.step (hne 0) a) (fun n => hne (n + 1))

/-- C28.  As long as the table of denial counts is not full, the third denial of an event (since it was last granted) immediately leads to its
abort.  When the table is full this fails (`C28_eviction_limit`). -/
theorem C28_third_denial (c : Cfg) (as : List Act) (hne : NoEvict c (init c) as) (l1 l2 : List Obs) (i id : Nat)
    (hl : (run c (init c) as).log = l1 ++ .deny i id :: l2) (hd : 3 ≤ den id (l1 ++ [.deny i id])) : ∃ l3, l2 = .abort i id :: l3 := by
  have h0 : EqInv (init c) := by
    refine ⟨List.nodup_nil, fun _ => rfl, ?_⟩
    intro l1 i id l2 h
    simp [init] at h
  exact (h0.run as hne).deny l1 i id l2 hl hd

/-- One `process()` call (number `i`) whose event is denied and put back. -/
def deniedCall (i : Nat) : List Act :=
  [.process, .go i true .deny, .go i true .deny, .go i true .deny, .go i true .deny, .go i true .deny]

/-- Outside the domain of C28 when the table of denial counts is full: with `max_denial_tracking = 1` a single event's own count is evicted by its next denial,
so it is denied three (four, ...) times and put back each time. -/
theorem C28_eviction_limit :
    let s := run ⟨1, 10, 1⟩ (init ⟨1, 10, 1⟩)
      ([.enqueue 7 (some (.finite 1)) none, .enqPut 0] ++ deniedCall 0 ++ deniedCall 1 ++ deniedCall 2 ++ deniedCall 3)
    den 7 s.log = 4 ∧ s.queue = [(5, 7)] ∧ ∀ i, .abort i 7 ∉ s.log := by
  refine ⟨by decide, by decide, ?_⟩
  intro i
  have hlog : (run ⟨1, 10, 1⟩ (init ⟨1, 10, 1⟩)
      ([.enqueue 7 (some (.finite 1)) none, .enqPut 0] ++ deniedCall 0 ++ deniedCall 1 ++ deniedCall 2 ++ deniedCall 3)).log =
      [.enq (1, 7), .take 0 (1, 7), .deny 0 7, .requeue 0 (2, 7), .take 1 (2, 7), .deny 1 7, .requeue 1 (3, 7), .take 2 (3, 7), .deny 2 7,
       .requeue 2 (4, 7), .take 3 (4, 7), .deny 3 7, .requeue 3 (5, 7)] := by decide
  show .abort i 7 ∉ (run ⟨1, 10, 1⟩ (init ⟨1, 10, 1⟩) _).log
  rw [hlog]
  simp

/-- Non-vacuity of C28: with room in the table the third denial aborts the event. -/
example :
    let as := [.enqueue 7 (some (.finite 1)) none, .enqPut 0] ++ deniedCall 0 ++ deniedCall 1 ++ deniedCall 2
    (run ⟨1, 10, 10⟩ (init ⟨1, 10, 10⟩) as).log =
      [.enq (1, 7), .take 0 (1, 7), .deny 0 7, .requeue 0 (2, 7), .take 1 (2, 7), .deny 1 7, .requeue 1 (4, 7), .take 2 (4, 7), .deny 2 7,
       .abort 2 7, .aborted 2 7] := by decide

/-! ### C29: the queue bound -/

/-- C29.  `enqueue` on a full queue raises `QueueFullError` and changes nothing; a NaN or infinite priority is rejected and changes
nothing. -/
theorem C29_rejects (c : Cfg) (s : Sys) (id : Nat) (prio : Option Prio) (created : Option Int) :
    (c.maxQueue ≤ s.queue.length → step c s (.enqueue id prio created) = s.obs (.full id)) ∧
    (s.queue.length < c.maxQueue → step c s (.enqueue id (some .nonFinite) created) = s.obs (.badPriority id)) := by
  refine ⟨?_, ?_⟩
  · intro h; simp only [step, enqueue, if_pos h]
  · intro h; simp only [step, enqueue, if_neg (by omega : ¬ c.maxQueue ≤ s.queue.length)]

/-- The entry in hand may still be put back. -/
def mayReturn (cl : Call) : Bool :=
  match cl.pc with
  | .asking _ => true
  | .requeueing _ _ => true
  | _ => false

/-- Number of calls whose entry may still be put back. -/
def inHand (s : Sys) : Nat := s.calls.countP mayReturn

theorem countP_set {α : Type} (p : α → Bool) {l : List α} {i : Nat} {x : α} (y : α) (hi : l[i]? = some x) :
    (l.set i y).countP p + (if p x then 1 else 0) = l.countP p + (if p y then 1 else 0) := by
  induction l generalizing i with
  | nil => simp at hi
  | cons z l ih =>
    cases i with
    | zero =>
      simp only [List.getElem?_cons_zero, Option.some.injEq] at hi; subst hi
      simp only [List.set_cons_zero, List.countP_cons]
      omega
    | succ i =>
      simp only [List.getElem?_cons_succ] at hi
      have := ih hi
      simp only [List.set_cons_succ, List.countP_cons] at this ⊢
      omega

/-- Everything that is in the queue or may still get there. -/
def weight (s : Sys) : Nat := s.queue.length + inHand s + s.pending.length

theorem weight_advance (c : Cfg) (s : Sys) (hh : Heapq.IsHeap entryLt s.queue) {i : Nat} {cl : Call} (hi : s.calls[i]? = some cl) (found : Bool) (perm : Perm) :
    weight (advance c s i cl found perm) ≤ weight s := by
  have key : ∀ cl' : Call, (s.calls.set i cl').countP mayReturn + (if mayReturn cl then 1 else 0) =
      s.calls.countP mayReturn + (if mayReturn cl' then 1 else 0) := fun cl' => countP_set mayReturn cl' hi
  unfold Processor.advance
  cases hpc : cl.pc with
  | check =>
    simp only
    split
    · have := key { cl with pc := .getting }
      simp [mayReturn, hpc] at this
      simp [weight, inHand, setCall, this]
    · have := key { cl with pc := .draining }
      simp [mayReturn, hpc] at this
      simp [weight, inHand, setCall, this]
  | getting =>
    simp only
    cases hq : Heapq.pop entryLt s.queue with
    | none => exact Nat.le_refl _
    | some r =>
      obtain ⟨e, q⟩ := r
      have hlen : s.queue.length = q.length + 1 := (Heapq.pop_spec entryOrder hh hq).1.length_eq
      simp only
      split
      · have := key { cl with pc := .asking e }
        simp [mayReturn, hpc] at this
        simp [weight, inHand, setCall, Sys.obs, this]; omega
      · have := key { cl with pc := .check }
        simp [mayReturn, hpc] at this
        simp [weight, inHand, setCall, Sys.obs, this]; omega
  | asking e =>
    simp only
    cases perm with
    | grant =>
      have := key { cl with pc := .granted e }
      simp [mayReturn, hpc] at this
      simp [weight, inHand, setCall, Sys.obs]; omega
    | deny =>
      simp only [Processor.deny]
      split
      · have := key { cl with pc := .aborting e }
        simp [mayReturn, hpc] at this
        simp [weight, inHand, setCall, Sys.obs]; omega
      · have := key { cl with pc := .requeueing e (nextCount c s.denials e.2) }
        simp [mayReturn, hpc] at this
        simp [weight, inHand, setCall, Sys.obs]; omega
    | raise =>
      have := key { cl with pc := .failed }
      simp [mayReturn, hpc] at this
      simp [weight, inHand, setCall, Sys.obs]; omega
  | granted e =>
    have := key { processed := cl.processed + 1, pc := .check }
    simp [mayReturn, hpc] at this
    simp [weight, inHand, setCall, Sys.obs]; omega
  | aborting e =>
    have := key { cl with pc := .draining }
    simp [mayReturn, hpc] at this
    simp [weight, inHand, setCall, Sys.obs]; omega
  | requeueing e n =>
    have := key { cl with pc := .draining }
    simp [mayReturn, hpc] at this
    have hl := (Heapq.push_perm entryLt s.queue (e.1 + n, e.2)).length_eq
    simp only [List.length_cons] at hl
    simp [weight, inHand, setCall, Sys.obs, hl]; omega
  | draining =>
    have := key { cl with pc := .done }
    simp [mayReturn, hpc] at this
    simp only
    split
    · simp [weight, inHand, setCall, Sys.obs]; omega
    · simp [weight, inHand, setCall, Sys.obs]; omega
  | done => exact Nat.le_refl _
  | failed => exact Nat.le_refl _

/-- At every moment at most `a` calls have an entry in hand that may be put back, and at most `k` `enqueue` calls are between check and put. -/
def Width (c : Cfg) (s : Sys) (as : List Act) (a k : Nat) : Prop :=
  ∀ n, inHand (run c s (as.take n)) ≤ a ∧ (run c s (as.take n)).pending.length ≤ k

theorem weight_step {c : Cfg} {s : Sys} (hh : Heapq.IsHeap entryLt s.queue) (a k : Nat) (hw : weight s + 1 ≤ c.maxQueue + a + k) (act : Act)
    (h1 : inHand (step c s act) ≤ a) (h2 : (step c s act).pending.length ≤ k) : weight (step c s act) + 1 ≤ c.maxQueue + a + k := by
  cases act with
  | enqueue id prio created =>
    have hmain : ∀ p, ¬ c.maxQueue ≤ s.queue.length → inHand s ≤ a → (s.pending ++ [p]).length ≤ k →
        weight { s with pending := s.pending ++ [p] } + 1 ≤ c.maxQueue + a + k := by
      intro p hlt hi hp
      simp only [weight]
      have : inHand { s with pending := s.pending ++ [p] } = inHand s := rfl
      rw [this]; omega
    simp only [step, enqueue] at h1 h2 ⊢
    split
    · exact hw
    · next hlt =>
      rw [if_neg hlt] at h1 h2
      cases prio with
      | some p =>
        cases p with
        | finite p => exact hmain _ hlt h1 h2
        | nonFinite => exact hw
      | none =>
        cases created with
        | some p => exact hmain _ hlt h1 h2
        | none => exact hw
  | enqPut j =>
    simp only [step, enqPut] at h1 h2 ⊢
    split
    · exact hw
    · next e he =>
      have hl := (Heapq.push_perm entryLt s.queue e).length_eq
      simp only [List.length_cons] at hl
      have hlt : j < s.pending.length := (List.getElem?_eq_some_iff.1 he).1
      have hp : (s.pending.eraseIdx j).length = s.pending.length - 1 := List.length_eraseIdx_of_lt hlt
      simp only [weight] at hw ⊢
      have : ∀ q p l, inHand { s with queue := q, pending := p, log := l } = inHand s := fun _ _ _ => rfl
      rw [this, hl, hp]; omega
  | process =>
    have : weight (step c s .process) = weight s := by simp [weight, step, inHand, mayReturn]
    rw [this]; exact hw
  | go i found perm =>
    simp only [step] at h1 h2 ⊢
    split
    · exact hw
    · next cl hi =>
      have := weight_advance c s hh hi found perm
      omega
  | cancel i =>
    simp only [step] at h1 h2 ⊢
    split
    · exact hw
    · next cl hi =>
      split
      · exact hw
      · have := countP_set mayReturn { cl with pc := .failed } hi
        have h3 : mayReturn { cl with pc := .failed } = false := rfl
        rw [h3] at this
        have h4 : weight (setCall s i { cl with pc := .failed }) ≤ weight s := by
          simp only [weight, inHand, setCall]
          simp at this
          omega
        omega
  | stop => exact hw
  | forget id => exact hw

theorem weight_run {c : Cfg} (a k : Nat) (as : List Act) {s : Sys} {slot : Nat → Slot} (hs : Sim s slot)
    (hw : weight s + 1 ≤ c.maxQueue + a + k) (hwd : Width c s as a k) : weight (run c s as) + 1 ≤ c.maxQueue + a + k := by
  induction as generalizing s slot with
  | nil => exact hw
  | cons b as ih =>
    obtain ⟨slot', hs'⟩ := hs.step (c := c) b
    refine ih hs' (weight_step hs.heap a k hw b ?_ ?_) (fun n => hwd (n + 1))
    · have := (hwd 1).1; simpa [run] using this
    · have := (hwd 1).2; simpa [run] using this

/-- C29 (partial).  The queue exceeds `max_queue_size` by less than the number of concurrent `enqueue` calls plus the number of entries that
`process()` calls have in hand and may put back.  Missing: the claim's bound `max_queue_size` itself, which is false (`C29_requeue_violation`,
`C29_enqueue_violation`). -/
theorem C29_bound_partial {c : Cfg} (hv : c.Valid) (as : List Act) (a k : Nat) (hw : Width c (init c) as a k) :
    (run c (init c) as).queue.length + 1 ≤ c.maxQueue + a + k := by
  have h0 : weight (init c) + 1 ≤ c.maxQueue + a + k := by
    have := hv.2.2.1
    simp [weight, init, inHand]; omega
  have := weight_run a k as (sim_init c) h0 hw
  unfold weight at this
  omega

/-- C29 is false: a denied entry that is put back after the queue has been refilled exceeds the bound (`max_queue_size = 1`, no concurrent
`enqueue` calls). -/
theorem C29_requeue_violation :
    (run ⟨1, 1, 10⟩ (init ⟨1, 1, 10⟩)
      [.enqueue 7 (some (.finite 1)) none, .enqPut 0, .process, .go 0 true .deny, .go 0 true .deny,   -- 7 is taken
       .enqueue 8 (some (.finite 1)) none, .enqPut 0,                                                 -- 8 fills the queue
       .go 0 true .deny, .go 0 true .deny]).queue.length = 2 := by decide                             -- 7 is denied and put back

/-- C29 is false: two concurrent `enqueue` calls both pass the size check before either puts its entry. -/
theorem C29_enqueue_violation :
    (run ⟨1, 1, 10⟩ (init ⟨1, 1, 10⟩)
      [.enqueue 7 (some (.finite 1)) none, .enqueue 8 (some (.finite 2)) none, .enqPut 0, .enqPut 0]).queue.length = 2 := by decide

/-- Non-vacuity of C29: the schedule of `C29_requeue_violation` has width 1, 1, and the bound of `C29_bound_partial` is reached. -/
example : Width ⟨1, 1, 10⟩ (init ⟨1, 1, 10⟩)
      [.enqueue 7 (some (.finite 1)) none, .enqPut 0, .process, .go 0 true .deny, .go 0 true .deny,
       .enqueue 8 (some (.finite 1)) none, .enqPut 0, .go 0 true .deny, .go 0 true .deny] 1 1 := by
  intro n
  by_cases h : n < 10
  · have : ∀ m : Fin 10, inHand (run ⟨1, 1, 10⟩ (init ⟨1, 1, 10⟩) (List.take m.val
      [.enqueue 7 (some (.finite 1)) none, .enqPut 0, .process, .go 0 true .deny, .go 0 true .deny,
       .enqueue 8 (some (.finite 1)) none, .enqPut 0, .go 0 true .deny, .go 0 true .deny])) ≤ 1 ∧
      (run ⟨1, 1, 10⟩ (init ⟨1, 1, 10⟩) (List.take m.val
      [.enqueue 7 (some (.finite 1)) none, .enqPut 0, .process, .go 0 true .deny, .go 0 true .deny,
       .enqueue 8 (some (.finite 1)) none, .enqPut 0, .go 0 true .deny, .go 0 true .deny])).pending.length ≤ 1 := by decide
    exact this ⟨n, h⟩
  · rw [List.take_of_length_le (by simp; omega)]
    decide

end Verif.Processor
