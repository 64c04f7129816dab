import Verif.Model.PriorityQueueCancel
import Verif.Props.PriorityQueue

/-!
# C231: cancelling blocked queue calls

What the calls did is judged by `PriorityQueue.Valid`, the specification of C33.
-/

set_option linter.unusedSectionVars false
set_option linter.unusedSimpArgs false

namespace Verif.PriorityQueueCancel

open PriorityQueue (Op Obs Valid full full_true full_false putOf gotOf)

variable {τ α : Type}

structure Good (lt : α → α → Bool) (m : Int) (s : Sys τ α) : Prop where
  heap : Heapq.IsHeap lt s.queue
  valid : Valid lt m s.log s.queue
  bound : 0 < m → (s.queue.length : Int) ≤ m

theorem notify_queue (s : Sys τ α) : (notify s).queue = s.queue := by unfold notify; split <;> rfl
theorem notify_log (s : Sys τ α) : (notify s).log = s.log := by unfold notify; split <;> rfl

theorem Good.of_same {lt : α → α → Bool} {m : Int} {s s' : Sys τ α} (h : Good lt m s) (hq : s'.queue = s.queue) (hl : s'.log = s.log) : Good lt m s' :=
  ⟨by rw [hq]; exact h.heap, by rw [hq, hl]; exact h.valid, by rw [hq]; exact h.bound⟩

theorem Good.notify {lt : α → α → Bool} {m : Int} {s : Sys τ α} (h : Good lt m s) : Good lt m (notify s) :=
  h.of_same (notify_queue s) (notify_log s)

theorem Good.push {lt : α → α → Bool} (ho : Heapq.Order lt) {m : Int} {s : Sys τ α} (h : Good lt m s) (t : τ) (x : α)
    (hf : full m s.queue = false) : Good lt m (pushNotify lt s t x) := by
  have hp := Heapq.push_perm lt s.queue x
  have hb : 0 < m → ((Heapq.push lt s.queue x).length : Int) ≤ m := by
    intro hm
    have := full_false hf hm
    rw [hp.length_eq]; simp only [List.length_cons]; omega
  exact Good.notify ⟨Heapq.push_heap ho h.heap x, .put h.valid hp hb, hb⟩

theorem Good.pop {lt : α → α → Bool} (ho : Heapq.Order lt) {m : Int} {s : Sys τ α} (h : Good lt m s) (t : τ) {x : α} {q : List α}
    (hq : Heapq.pop lt s.queue = some (x, q)) :
    Good lt m (PriorityQueueCancel.notify { s with queue := q, log := s.log ++ [.got t x] }) := by
  obtain ⟨h1, h2, h3⟩ := Heapq.pop_spec ho h.heap hq
  refine Good.notify ⟨h2, .got h.valid h1 h3, ?_⟩
  intro hm
  have := h.bound hm
  have := h1.length_eq
  simp only [List.length_cons] at this
  show (q.length : Int) ≤ m
  omega

theorem Good.exec {lt : α → α → Bool} (ho : Heapq.Order lt) {m : Int} {s : Sys τ α} (h : Good lt m s) (t : τ) (op : Op α) :
    Good lt m (exec lt m s t op) := by
  cases op with
  | put x =>
    simp only [PriorityQueueCancel.exec]
    split
    · exact h.of_same rfl rfl
    · next hf => exact h.push ho t x (by simpa using hf)
  | putNowait x =>
    simp only [PriorityQueueCancel.exec]
    split
    · next hf => exact ⟨h.heap, .full h.valid (full_true hf).1 (full_true hf).2, h.bound⟩
    · next hf => exact h.push ho t x (by simpa using hf)
  | get =>
    simp only [PriorityQueueCancel.exec]
    split
    · exact h.of_same rfl rfl
    · next x q hq => exact h.pop ho t hq
  | getNowait =>
    simp only [PriorityQueueCancel.exec]
    split
    · next hq =>
      have hn := (Heapq.pop_none lt s.queue).1 hq
      refine ⟨h.heap, ?_, h.bound⟩
      have hv := h.valid
      show Valid lt m (s.log ++ [.empty t]) s.queue
      rw [hn] at hv ⊢
      exact .empty hv
    · next x q hq => exact h.pop ho t hq

/-- The actions that cancel a call. -/
def Cancels : Act τ α → Prop
  | .cancelFresh _ => True
  | .cancelWaiting _ => True
  | .interrupt _ => True
  | _ => False

theorem interrupted_queue (b : Bool) (s : Sys τ α) : (interrupted b s).queue = s.queue := by
  unfold interrupted; split
  · exact notify_queue s
  · rfl
theorem interrupted_log (b : Bool) (s : Sys τ α) : (interrupted b s).log = s.log := by
  unfold interrupted; split
  · exact notify_log s
  · rfl

/-- C231.  Cancelling a blocked call stores nothing, takes nothing and completes no call: the stored items and what was done so far stay the same. -/
theorem C231_cancel_silent (lt : α → α → Bool) (m : Int) (b : Bool) (s : Sys τ α) (a : Act τ α) (ha : Cancels a) :
    (step lt m b s a).queue = s.queue ∧ (step lt m b s a).log = s.log := by
  cases a with
  | cancelFresh i => exact ⟨rfl, rfl⟩
  | cancelWaiting i => exact ⟨rfl, rfl⟩
  | interrupt i =>
    simp only [step]
    split
    · exact ⟨rfl, rfl⟩
    · exact ⟨interrupted_queue _ _, interrupted_log _ _⟩
  | call t op => exact ha.elim
  | runFresh i => exact ha.elim
  | runWoken i => exact ha.elim

theorem Good.step {lt : α → α → Bool} (ho : Heapq.Order lt) {m : Int} (b : Bool) {s : Sys τ α} (h : Good lt m s) (a : Act τ α) :
    Good lt m (step lt m b s a) := by
  cases a with
  | call t op => exact h.of_same rfl rfl
  | runFresh i =>
    simp only [PriorityQueueCancel.step]
    split
    · exact h
    · next t op _ => exact Good.exec (s := { s with fresh := s.fresh.eraseIdx i }) ho (h.of_same rfl rfl) t op
  | runWoken i =>
    simp only [PriorityQueueCancel.step]
    split
    · exact h
    · next t op _ => exact Good.exec (s := { s with woken := s.woken.eraseIdx i }) ho (h.of_same rfl rfl) t op
  | cancelFresh i => exact h.of_same rfl rfl
  | cancelWaiting i => exact h.of_same rfl rfl
  | interrupt i =>
    have := C231_cancel_silent lt m b s (.interrupt i) trivial
    exact h.of_same this.1 this.2

theorem good_init (lt : α → α → Bool) (m : Int) : Good lt m ({} : Sys τ α) :=
  ⟨Heapq.heap_nil lt, .nil, fun hm => by simp; omega⟩

theorem Good.run {lt : α → α → Bool} (ho : Heapq.Order lt) {m : Int} (b : Bool) (as : List (Act τ α)) {s : Sys τ α} (h : Good lt m s) :
    Good lt m (run lt m b s as) := by
  induction as generalizing s with
  | nil => exact h
  | cons a as ih => exact ih (h.step ho b a)

/-- C231.  With calls cancelled at any moment, what the calls did is still a correct history of a bounded priority queue, and the items stored are those put
and not yet returned. -/
theorem C231_history {lt : α → α → Bool} (ho : Heapq.Order lt) (m : Int) (b : Bool) (as : List (Act τ α)) :
    Valid lt m (run lt m b ({} : Sys τ α) as).log (run lt m b ({} : Sys τ α) as).queue ∧
    ((run lt m b ({} : Sys τ α) as).log.filterMap putOf).Perm
      ((run lt m b ({} : Sys τ α) as).log.filterMap gotOf ++ (run lt m b ({} : Sys τ α) as).queue) ∧
    (0 < m → ((run lt m b ({} : Sys τ α) as).queue.length : Int) ≤ m) :=
  have h := Good.run ho b as (good_init (τ := τ) lt m)
  ⟨h.valid, PriorityQueue.C33_conservation h.valid, h.bound⟩

/-! ### Wake-ups -/

/-- A call that may block waiting for space. -/
def isPut : τ × Op α → Bool
  | (_, .put _) => true
  | _ => false

def isGet : τ × Op α → Bool
  | (_, .get) => true
  | _ => false

/-- Only getters wait, and as many are notified as there are items. -/
structure GetInv (s : Sys τ α) : Prop where
  waiters : ∀ w ∈ s.waiters, isGet w = true
  woken : ∀ w ∈ s.woken, isGet w = true
  enough : s.waiters = [] ∨ s.queue.length ≤ s.woken.length

theorem GetInv.notify {s : Sys τ α} (hw : ∀ w ∈ s.waiters, isGet w = true) (hk : ∀ w ∈ s.woken, isGet w = true)
    (h : s.waiters = [] ∨ s.queue.length ≤ s.woken.length + 1) : GetInv (notify s) := by
  unfold PriorityQueueCancel.notify
  cases hws : s.waiters with
  | nil => exact ⟨by simp [hws], hk, .inl hws⟩
  | cons w ws =>
    refine ⟨fun v hv => hw v (by simp only at hv; rw [hws]; exact List.mem_cons_of_mem _ hv), ?_, .inr ?_⟩
    · intro v hv
      rcases List.mem_append.1 hv with hv | hv
      · exact hk v hv
      · rw [List.mem_singleton.1 hv]; exact hw w (by rw [hws]; exact List.mem_cons_self)
    · rcases h with h | h
      · rw [h] at hws; cases hws
      · simpa using h

/-- Running a call, seen from the state without it: `k` is 1 if it was a notified one. -/
theorem GetInv.exec {lt : α → α → Bool} {m : Int} {s : Sys τ α} (ho : Heapq.Order lt) (hg : Good lt m s)
    (hw : ∀ w ∈ s.waiters, isGet w = true) (hk : ∀ w ∈ s.woken, isGet w = true) (t : τ) (op : Op α)
    (he : s.waiters = [] ∨ s.queue.length ≤ s.woken.length ∨ (isGet (t, op) = true ∧ s.queue.length ≤ s.woken.length + 1))
    (hb : full m s.queue = true → isPut (t, op) = false) : GetInv (exec lt m s t op) := by
  have hpush : ∀ x, isGet (t, op) = false → GetInv (pushNotify lt s t x) := by
    intro x hx
    refine GetInv.notify hw hk ?_
    rcases he with he | he | he
    · exact .inl he
    · right
      have := (Heapq.push_perm lt s.queue x).length_eq
      simp only [List.length_cons] at this
      simp only [this]; omega
    · rw [hx] at he; cases he.1
  have hpop : ∀ x q, Heapq.pop lt s.queue = some (x, q) →
      GetInv (PriorityQueueCancel.notify { s with queue := q, log := s.log ++ [.got t x] }) := by
    intro x q hq
    refine GetInv.notify hw hk ?_
    have := (Heapq.pop_spec ho hg.heap hq).1.length_eq
    simp only [List.length_cons] at this
    rcases he with he | he | he
    · exact .inl he
    · right; show q.length ≤ s.woken.length + 1; omega
    · right; show q.length ≤ s.woken.length + 1; omega
  cases op with
  | put x =>
    simp only [PriorityQueueCancel.exec]
    split
    · next hf => have := hb hf; simp [isPut] at this
    · exact hpush x rfl
  | putNowait x =>
    simp only [PriorityQueueCancel.exec]
    split
    · refine ⟨hw, hk, ?_⟩
      rcases he with he | he | he
      · exact .inl he
      · exact .inr he
      · exact absurd he.1 (by simp [isGet])
    · exact hpush x rfl
  | get =>
    simp only [PriorityQueueCancel.exec]
    split
    · next hq =>
      have hn := (Heapq.pop_none lt s.queue).1 hq
      refine ⟨?_, hk, .inr (by show s.queue.length ≤ _; rw [hn]; simp)⟩
      intro w hm
      rcases List.mem_append.1 hm with hm | hm
      · exact hw w hm
      · rw [List.mem_singleton.1 hm]; rfl
    · next x q hq => exact hpop x q hq
  | getNowait =>
    simp only [PriorityQueueCancel.exec]
    split
    · next hq =>
      have hn := (Heapq.pop_none lt s.queue).1 hq
      exact ⟨hw, hk, .inr (by show s.queue.length ≤ _; rw [hn]; simp)⟩
    · next x q hq => exact hpop x q hq

/-- The calls of an action are not `put`s. -/
def NoPut : Act τ α → Prop
  | .call _ op => ∀ x, op ≠ .put x
  | _ => True

/-- A notified call is interrupted. -/
def Interrupts : Act τ α → Prop
  | .interrupt _ => True
  | _ => False

theorem length_eraseIdx_some {β : Type} {l : List β} {i : Nat} {x : β} (h : l[i]? = some x) : (l.eraseIdx i).length + 1 = l.length := by
  have hi : i < l.length := (List.getElem?_eq_some_iff.1 h).1
  rw [List.length_eraseIdx, if_pos hi]
  omega

/-- The calls that wait for the lock the first time are not `put`s, if puts can block. -/
def FreshOk (m : Int) (s : Sys τ α) : Prop := m ≤ 0 ∨ ∀ r ∈ s.fresh, isPut r = false

theorem exec_fresh (lt : α → α → Bool) (m : Int) (s : Sys τ α) (t : τ) (op : Op α) : (exec lt m s t op).fresh = s.fresh := by
  have hn : ∀ s : Sys τ α, (notify s).fresh = s.fresh := by intro s; unfold notify; split <;> rfl
  cases op <;> simp only [exec, wait, pushNotify] <;> split <;> first | rfl | exact hn _

theorem interrupted_fresh (b : Bool) (s : Sys τ α) : (interrupted b s).fresh = s.fresh := by
  have hn : ∀ s : Sys τ α, (notify s).fresh = s.fresh := by intro s; unfold notify; split <;> rfl
  unfold interrupted; split
  · exact hn s
  · rfl

theorem FreshOk.step {lt : α → α → Bool} {m : Int} {b : Bool} {s : Sys τ α} (h : FreshOk m s) (a : Act τ α) (ha : m ≤ 0 ∨ NoPut a) :
    FreshOk m (step lt m b s a) := by
  rcases h with h | h
  · exact .inl h
  · rcases ha with ha | ha
    · exact .inl ha
    · right
      cases a with
      | call t op =>
        intro r hr
        rcases List.mem_append.1 hr with hr | hr
        · exact h r hr
        · rw [List.mem_singleton.1 hr]
          cases op with
          | put x => exact absurd rfl (ha x)
          | putNowait x => rfl
          | get => rfl
          | getNowait => rfl
      | runFresh i =>
        intro r hr
        simp only [PriorityQueueCancel.step] at hr
        split at hr
        · exact h r hr
        · rw [exec_fresh] at hr; exact h r (List.mem_of_mem_eraseIdx hr)
      | runWoken i =>
        intro r hr
        simp only [PriorityQueueCancel.step] at hr
        split at hr
        · exact h r hr
        · rw [exec_fresh] at hr; exact h r hr
      | cancelFresh i => exact fun r hr => h r (List.mem_of_mem_eraseIdx hr)
      | cancelWaiting i => exact h
      | interrupt i =>
        intro r hr
        simp only [PriorityQueueCancel.step] at hr
        split at hr
        · exact h r hr
        · rw [interrupted_fresh] at hr; exact h r hr

theorem GetInv.step {lt : α → α → Bool} {m : Int} {b : Bool} {s : Sys τ α} (ho : Heapq.Order lt) (hg : Good lt m s) (h : GetInv s)
    (hf : FreshOk m s) (a : Act τ α) (hi : b = true ∨ ¬ Interrupts a) : GetInv (step lt m b s a) := by
  cases a with
  | call t op => exact ⟨h.waiters, h.woken, h.enough⟩
  | runFresh i =>
    simp only [PriorityQueueCancel.step]
    split
    · exact h
    · next t op he =>
      refine GetInv.exec (s := { s with fresh := s.fresh.eraseIdx i }) ho (hg.of_same rfl rfl) h.waiters h.woken t op ?_ ?_
      · rcases h.enough with e | e
        · exact .inl e
        · exact .inr (.inl e)
      · intro hfull
        rcases hf with hf | hf
        · have := (full_true hfull).1; omega
        · exact hf _ (List.mem_of_getElem? he)
  | runWoken i =>
    simp only [PriorityQueueCancel.step]
    split
    · exact h
    · next t op he =>
      have hgt := h.woken _ (List.mem_of_getElem? he)
      have hlen := length_eraseIdx_some he
      refine GetInv.exec (s := { s with woken := s.woken.eraseIdx i }) ho (hg.of_same rfl rfl) h.waiters (fun w hw => h.woken w (List.mem_of_mem_eraseIdx hw)) t op ?_ ?_
      · rcases h.enough with e | e
        · exact .inl e
        · refine .inr (.inr ⟨hgt, ?_⟩)
          show s.queue.length ≤ (s.woken.eraseIdx i).length + 1
          omega
      · intro _
        cases op <;> simp [isGet] at hgt
        rfl
  | cancelFresh i => exact ⟨h.waiters, h.woken, h.enough⟩
  | cancelWaiting i =>
    refine ⟨fun w hw => h.waiters w (List.mem_of_mem_eraseIdx hw), h.woken, ?_⟩
    rcases h.enough with e | e
    · left; show s.waiters.eraseIdx i = []; rw [e]; rfl
    · exact .inr e
  | interrupt i =>
    rcases hi with rfl | hi
    · simp only [PriorityQueueCancel.step]
      split
      · exact h
      · next w he =>
        have hlen := length_eraseIdx_some he
        simp only [interrupted, if_true]
        refine GetInv.notify h.waiters (fun w hw => h.woken w (List.mem_of_mem_eraseIdx hw)) ?_
        rcases h.enough with e | e
        · exact .inl e
        · right; show s.queue.length ≤ (s.woken.eraseIdx i).length + 1; omega
    · exact absurd trivial hi

theorem inv_run {lt : α → α → Bool} {m : Int} {b : Bool} (ho : Heapq.Order lt) (as : List (Act τ α)) {s : Sys τ α} (hg : Good lt m s) (h : GetInv s)
    (hf : FreshOk m s) (hp : m ≤ 0 ∨ ∀ a ∈ as, NoPut a) (hi : b = true ∨ ∀ a ∈ as, ¬ Interrupts a) : GetInv (run lt m b s as) := by
  induction as generalizing s with
  | nil => exact h
  | cons a as ih =>
    refine ih (hg.step ho b a) (h.step ho hg hf a ?_) (hf.step a ?_) ?_ ?_
    · rcases hi with hi | hi
      · exact .inl hi
      · exact .inr (hi a List.mem_cons_self)
    · rcases hp with hp | hp
      · exact .inl hp
      · exact .inr (hp a List.mem_cons_self)
    · rcases hp with hp | hp
      · exact .inl hp
      · exact .inr (fun x hx => hp x (List.mem_cons_of_mem _ hx))
    · rcases hi with hi | hi
      · exact .inl hi
      · exact .inr (fun x hx => hi x (List.mem_cons_of_mem _ hx))

/-- C231.  No cancellation loses a wake-up, on queues where no put can block: while a get waits, as many waiting gets are notified as items are stored; so an item
is never left in the queue with a get waiting and nobody about to take it. `hi`: the cancellations come from cancel scopes, or the condition variable passes
the notification of an interrupted call on. -/
theorem C231_wakeup {lt : α → α → Bool} (ho : Heapq.Order lt) (m : Int) (b : Bool) (as : List (Act τ α)) (hp : m ≤ 0 ∨ ∀ a ∈ as, NoPut a)
    (hi : b = true ∨ ∀ a ∈ as, ¬ Interrupts a) :
    ((run lt m b ({} : Sys τ α) as).waiters ≠ [] → (run lt m b ({} : Sys τ α) as).queue.length ≤ (run lt m b ({} : Sys τ α) as).woken.length) ∧
    (∀ w ∈ (run lt m b ({} : Sys τ α) as).woken, ∃ t, w = (t, .get)) ∧
    ((run lt m b ({} : Sys τ α) as).woken = [] → (run lt m b ({} : Sys τ α) as).queue ≠ [] → (run lt m b ({} : Sys τ α) as).waiters = []) := by
  have h := inv_run (b := b) ho as (good_init (τ := τ) lt m) ⟨by simp, by simp, .inl rfl⟩ (.inr (by simp)) hp hi
  refine ⟨fun hw => h.enough.resolve_left hw, ?_, ?_⟩
  · rintro ⟨t, op⟩ hw
    have := h.woken _ hw
    cases op <;> simp [isGet] at this
    exact ⟨t, rfl⟩
  · intro h1 h2
    rcases h.enough with e | e
    · exact e
    · rw [h1] at e
      exact absurd (List.length_eq_zero_iff.1 (Nat.le_zero.1 e)) h2

/-- Where the condition variable does not pass the notification on, a call interrupted after it was notified takes the wake-up with it: the item stays, the
other get waits. -/
theorem C231_lost_limit :
    run (fun a b : Nat => decide (a < b)) 0 false ({} : Sys String Nat)
      [.call "g" .get, .runFresh 0, .call "h" .get, .runFresh 0, .call "p" (.put 5), .runFresh 0, .interrupt 0] =
    { queue := [5], waiters := [("h", .get)], log := [.put "p" 5] } := by decide

/-- Non-vacuity: one get is cancelled while it waits, one before it has the lock, one is interrupted after the notification; the last one gets the item. -/
example : run (fun a b : Nat => decide (a < b)) 0 true ({} : Sys String Nat)
      [.call "a" .get, .runFresh 0, .call "b" .get, .runFresh 0, .call "c" .get, .runFresh 0, .call "d" .get, .cancelFresh 0, .cancelWaiting 0,
       .call "p" (.put 5), .runFresh 0, .interrupt 0, .runWoken 0] =
    { queue := [], log := [.put "p" 5, .got "c" 5] } := by decide

end Verif.PriorityQueueCancel
