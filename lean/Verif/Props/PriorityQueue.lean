import Verif.Model.PriorityQueue

/-!
# PriorityQueue: C33, C34

The specification of C33 is a predicate on observation logs (`Valid`), independent of heaps, waiters and locks: the log is a
history of a bag from which `get` always takes a smallest item.
-/

set_option linter.unusedSectionVars false

namespace Verif.PriorityQueue

variable {τ α : Type}

/-- `Valid lt m log b`: `log` is a correct history of a priority queue of bound `m` (no bound if `m ≤ 0`) that leaves the bag `b`
(up to order). -/
inductive Valid (lt : α → α → Bool) (m : Int) : List (Obs τ α) → List α → Prop where
  | nil : Valid lt m [] []
  | put {log : List (Obs τ α)} {b b' : List α} {t : τ} {x : α} : Valid lt m log b → b'.Perm (x :: b) →
      (0 < m → (b'.length : Int) ≤ m) → Valid lt m (log ++ [.put t x]) b'
  | got {log : List (Obs τ α)} {b b' : List α} {t : τ} {x : α} : Valid lt m log b → b.Perm (x :: b') →
      (∀ y ∈ b, lt y x = false) → Valid lt m (log ++ [.got t x]) b'
  | full {log : List (Obs τ α)} {b : List α} {t : τ} : Valid lt m log b → 0 < m → m ≤ b.length →
      Valid lt m (log ++ [.full t]) b
  | empty {log : List (Obs τ α)} {t : τ} : Valid lt m log [] → Valid lt m (log ++ [.empty t]) []

structure Good (lt : α → α → Bool) (m : Int) (s : Sys τ α) : Prop where
  heap : Heapq.IsHeap lt s.queue
  valid : Valid lt m s.log s.queue
  bound : 0 < m → (s.queue.length : Int) ≤ m

theorem notify_queue (s : Sys τ α) : (notify s).queue = s.queue := by unfold notify; split <;> rfl
theorem notify_log (s : Sys τ α) : (notify s).log = s.log := by unfold notify; split <;> rfl

theorem Good.notify {lt : α → α → Bool} {m : Int} {s : Sys τ α} (h : Good lt m s) : Good lt m (notify s) := by
  refine ⟨?_, ?_, ?_⟩
  · rw [notify_queue]; exact h.heap
  · rw [notify_queue, notify_log]; exact h.valid
  · rw [notify_queue]; exact h.bound

theorem full_false {m : Int} {q : List α} (h : full m q = false) (hm : 0 < m) : (q.length : Int) < m := by
  simp only [full, Bool.and_eq_false_iff, decide_eq_false_iff_not] at h; omega

theorem full_true {m : Int} {q : List α} (h : full m q = true) : 0 < m ∧ m ≤ q.length := by
  simpa [full] using h

theorem Good.push {lt : α → α → Bool} (ho : Heapq.Order lt) {m : Int} {s : Sys τ α} (h : Good lt m s) (t : τ) (x : α)
    (hf : PriorityQueue.full m s.queue = false) : Good lt m (pushNotify lt s t x) := by
  have hp := Heapq.push_perm lt s.queue x
  have hb : 0 < m → ((Heapq.push lt s.queue x).length : Int) ≤ m := by
    intro hm
    have := full_false hf hm
    rw [hp.length_eq]; simp only [List.length_cons]; omega
  exact Good.notify ⟨Heapq.push_heap ho h.heap x, .put h.valid hp hb, hb⟩

theorem Good.pop {lt : α → α → Bool} (ho : Heapq.Order lt) {m : Int} {s : Sys τ α} (h : Good lt m s) (t : τ) {x : α} {q : List α}
    (hq : Heapq.pop lt s.queue = some (x, q)) :
    Good lt m (PriorityQueue.notify { s with queue := q, log := s.log ++ [.got t x] }) := by
  obtain ⟨h1, h2, h3⟩ := Heapq.pop_spec ho h.heap hq
  refine Good.notify ⟨h2, .got h.valid h1 h3, ?_⟩
  intro hm
  have := h.bound hm
  have := h1.length_eq
  simp only [List.length_cons] at this
  show (q.length : Int) ≤ m
  omega

theorem Good.exec {lt : α → α → Bool} (ho : Heapq.Order lt) {m : Int} {s : Sys τ α} (h : Good lt m s) (t : τ) (op : Op α) :
    Good lt m (exec lt m s t op) := by
  cases op with
  | put x =>
    simp only [PriorityQueue.exec]
    split
    · exact ⟨h.heap, h.valid, h.bound⟩
    · next hf => exact h.push ho t x (by simpa using hf)
  | putNowait x =>
    simp only [PriorityQueue.exec]
    split
    · next hf => exact ⟨h.heap, .full h.valid (full_true hf).1 (full_true hf).2, h.bound⟩
    · next hf => exact h.push ho t x (by simpa using hf)
  | get =>
    simp only [PriorityQueue.exec]
    split
    · exact ⟨h.heap, h.valid, h.bound⟩
    · next x q hq => exact h.pop ho t hq
  | getNowait =>
    simp only [PriorityQueue.exec]
    split
    · next hq =>
      have hn := (Heapq.pop_none lt s.queue).1 hq
      refine ⟨h.heap, ?_, h.bound⟩
      have hv := h.valid
      show Valid lt m (s.log ++ [.empty t]) s.queue
      rw [hn] at hv ⊢
      exact .empty hv
    · next x q hq => exact h.pop ho t hq

theorem Good.step {lt : α → α → Bool} (ho : Heapq.Order lt) {m : Int} {s : Sys τ α} (h : Good lt m s) (a : Act τ α) :
    Good lt m (step lt m s a) := by
  cases a with
  | call t op => exact ⟨h.heap, h.valid, h.bound⟩
  | run i =>
    simp only [PriorityQueue.step]
    split
    · exact h
    · next t op _ => exact Good.exec (s := { s with ready := s.ready.eraseIdx i }) ho ⟨h.heap, h.valid, h.bound⟩ t op

theorem good_init (lt : α → α → Bool) (m : Int) : Good lt m ({} : Sys τ α) :=
  ⟨Heapq.heap_nil lt, .nil, fun hm => by simp; omega⟩

theorem Good.run {lt : α → α → Bool} (ho : Heapq.Order lt) {m : Int} (as : List (Act τ α)) {s : Sys τ α} (h : Good lt m s) :
    Good lt m (run lt m s as) := by
  induction as generalizing s with
  | nil => exact h
  | cons a as ih => exact ih (h.step ho a)

/-- C33.  In every schedule of any number of `put`/`put_nowait`/`get`/`get_nowait` calls over any totally (pre)ordered items, what the
calls did is a correct history of a bounded priority queue: each `get` took a smallest stored item, `QueueFull`/`QueueEmpty` were
raised only on a full/empty queue and changed nothing; the size (`qsize()`) is that of the bag and never exceeds the bound. -/
theorem C33_history {lt : α → α → Bool} (ho : Heapq.Order lt) (m : Int) (as : List (Act τ α)) :
    ∃ b, Valid lt m (run lt m ({} : Sys τ α) as).log b ∧ qsize (run lt m ({} : Sys τ α) as) = b.length ∧
      (0 < m → (qsize (run lt m ({} : Sys τ α) as) : Int) ≤ m) :=
  have h := Good.run ho as (good_init (τ := τ) lt m)
  ⟨_, h.valid, rfl, h.bound⟩

/-- C33: `qsize()`, `empty()` and `full()` tell the number of items put and not yet got, whether there are none, and whether the bound (if there
is one) is reached. -/
theorem C33_observers {lt : α → α → Bool} (ho : Heapq.Order lt) (m : Int) (as : List (Act τ α)) :
    ∃ b, Valid lt m (run lt m ({} : Sys τ α) as).log b ∧ qsize (run lt m ({} : Sys τ α) as) = b.length ∧
      (isEmpty (run lt m ({} : Sys τ α) as) = true ↔ b = []) ∧
      (full m (run lt m ({} : Sys τ α) as).queue = true ↔ 0 < m ∧ (b.length : Int) = m) := by
  have h := Good.run ho as (good_init (τ := τ) lt m)
  refine ⟨_, h.valid, rfl, ?_, ?_⟩
  · simp [isEmpty]
  · simp only [full, Bool.and_eq_true, decide_eq_true_eq]
    constructor
    · rintro ⟨h1, h2⟩; have := h.bound h1; exact ⟨h1, by omega⟩
    · rintro ⟨h1, h2⟩; exact ⟨h1, by omega⟩

/-- Items put, items returned. -/
def putOf : Obs τ α → Option α
  | .put _ x => some x
  | _ => none
def gotOf : Obs τ α → Option α
  | .got _ x => some x
  | _ => none

/-- C33.  Every item put is returned exactly once or still stored: the items put are, with multiplicity, the items returned and
the bag that is left. -/
theorem C33_conservation {lt : α → α → Bool} {m : Int} {log : List (Obs τ α)} {b : List α} (h : Valid lt m log b) :
    (log.filterMap putOf).Perm (log.filterMap gotOf ++ b) := by
  induction h with
  | nil => exact .refl _
  | @put log b b' t x _ hp _ ih =>
    rw [List.filterMap_append, List.filterMap_append]
    have e1 : [(.put t x : Obs τ α)].filterMap putOf = [x] := rfl
    have e2 : [(.put t x : Obs τ α)].filterMap gotOf = [] := rfl
    rw [e1, e2, List.append_nil]
    refine (ih.append_right [x]).trans ?_
    rw [List.append_assoc]
    refine List.Perm.append_left _ ?_
    exact (List.perm_append_singleton x b).trans hp.symm
  | @got log b b' t x _ hp _ ih =>
    rw [List.filterMap_append, List.filterMap_append]
    have e1 : [(.got t x : Obs τ α)].filterMap putOf = [] := rfl
    have e2 : [(.got t x : Obs τ α)].filterMap gotOf = [x] := rfl
    rw [e1, e2, List.append_nil, List.append_assoc]
    exact ih.trans (List.Perm.append_left _ hp)
  | @full log b t _ _ _ ih =>
    rw [List.filterMap_append, List.filterMap_append]
    have e1 : [(.full t : Obs τ α)].filterMap putOf = [] := rfl
    have e2 : [(.full t : Obs τ α)].filterMap gotOf = [] := rfl
    rw [e1, e2, List.append_nil, List.append_nil]; exact ih
  | @empty log t _ ih =>
    rw [List.filterMap_append, List.filterMap_append]
    have e1 : [(.empty t : Obs τ α)].filterMap putOf = [] := rfl
    have e2 : [(.empty t : Obs τ α)].filterMap gotOf = [] := rfl
    rw [e1, e2, List.append_nil, List.append_nil]; exact ih

/-- C33.  A call that may run is never lost or duplicated: it finishes (one log entry) or waits.  In particular the nowait calls always
finish. -/
theorem C33_nowait_finishes (lt : α → α → Bool) (m : Int) (s : Sys τ α) (i : Nat) (t : τ) (op : Op α)
    (hi : s.ready[i]? = some (t, op)) (hop : (∃ x, op = .putNowait x) ∨ op = .getNowait) :
    ∃ o, (step lt m s (.run i)).log = s.log ++ [o] := by
  simp only [step, hi]
  rcases hop with ⟨x, rfl⟩ | rfl
  · simp only [exec]
    split
    · exact ⟨_, rfl⟩
    · exact ⟨_, by rw [pushNotify, notify_log]⟩
  · simp only [exec]
    split
    · exact ⟨_, rfl⟩
    · exact ⟨_, by rw [notify_log]⟩

/-- The order on natural numbers satisfies the hypotheses. -/
theorem natOrder : Heapq.Order (fun a b : Nat => decide (a < b)) := by
  constructor
  · intro a b h; simp at h ⊢; omega
  · intro a b c h1 h2; simp [Heapq.le] at h1 h2 ⊢; omega

/-- Non-vacuity of C33: three puts, a waiting getter, a full and an empty report. -/
example : (run (fun a b => decide (a < b)) 2 ({} : Sys String Nat)
    [.call "g" .get, .run 0, .call "p" (.put 5), .run 0, .call "q" (.put 3), .run 1, .run 0, .call "n" (.putNowait 9), .run 0,
     .call "o" (.putNowait 1), .run 0, .call "m" .getNowait, .run 0]).log =
    [.put "p" 5, .put "q" 3, .got "g" 3, .put "n" 9, .full "o", .got "m" 5] := by decide

/-! ### C34 -/

/-- A call that takes an item. -/
def isTaker : τ × Op α → Bool
  | (_, .get) => true
  | (_, .getNowait) => true
  | _ => false

/-- A call that waits for an item / for space. -/
def isGet : τ × Op α → Bool
  | (_, .get) => true
  | _ => false
def isPut : τ × Op α → Bool
  | (_, .put _) => true
  | _ => false

/-- No lost wake-up: if the queue is non-empty and a `get` is blocked, a `get` is on its way to the lock; if there is space and a `put` is
blocked, a `put` is on its way to the lock. -/
def NoLostWakeup (m : Int) (s : Sys τ α) : Prop :=
  (s.queue ≠ [] → (∃ w ∈ s.waiters, isGet w = true) → ∃ r ∈ s.ready, isGet r = true) ∧
  (full m s.queue = false → (∃ w ∈ s.waiters, isPut w = true) → ∃ r ∈ s.ready, isPut r = true)

/-- Invariant when only getters block. -/
structure GetInv (s : Sys τ α) : Prop where
  waiters : ∀ w ∈ s.waiters, isGet w = true
  enough : s.waiters = [] ∨ s.queue.length ≤ (s.ready.filter isGet).length

theorem filter_eraseIdx_length (p : α → Bool) (l : List α) (i : Nat) (x : α) (h : l[i]? = some x) :
    (l.filter p).length = ((l.eraseIdx i).filter p).length + (if p x then 1 else 0) := by
  induction l generalizing i with
  | nil => simp at h
  | cons y l ih =>
    cases i with
    | zero =>
      simp only [List.getElem?_cons_zero, Option.some.injEq] at h; subst h
      simp only [List.eraseIdx_cons_zero, List.filter_cons]
      split <;> simp
    | succ i =>
      simp only [List.getElem?_cons_succ] at h
      simp only [List.eraseIdx_cons_succ, List.filter_cons]
      have := ih i h
      split <;> (try simp only [List.length_cons]) <;> omega

/-- Notifying adds a ready getter. -/
theorem GetInv.notify {s : Sys τ α} (hw : ∀ w ∈ s.waiters, isGet w = true)
    (h : s.waiters = [] ∨ s.queue.length ≤ (s.ready.filter isGet).length + 1) : GetInv (notify s) := by
  unfold PriorityQueue.notify
  cases hws : s.waiters with
  | nil => exact ⟨by simp [hws], .inl hws⟩
  | cons w ws =>
    have hg := hw w (by simp [hws])
    refine ⟨fun v hv => hw v (by simp only at hv; rw [hws]; exact List.mem_cons_of_mem _ hv), .inr ?_⟩
    simp only [List.filter_append, List.length_append]
    rw [List.filter_cons_of_pos hg]
    rcases h with h | h
    · rw [h] at hws; cases hws
    · simpa using h

theorem GetInv.step {lt : α → α → Bool} {m : Int} {s : Sys τ α} (ho : Heapq.Order lt) (hg : Good lt m s) (h : GetInv s)
    (hr : m ≤ 0 ∨ ∀ r ∈ s.ready, isPut r = false) (a : Act τ α) : GetInv (step lt m s a) := by
  cases a with
  | call t op =>
    refine ⟨h.waiters, ?_⟩
    rcases h.enough with he | he
    · exact .inl he
    · right
      show s.queue.length ≤ ((s.ready ++ [(t, op)]).filter isGet).length
      rw [List.filter_append, List.length_append]; omega
  | run i =>
    simp only [PriorityQueue.step]
    split
    · exact h
    · next t op hi =>
      have hcount := filter_eraseIdx_length isGet s.ready i (t, op) hi
      have hpush : ∀ x, isGet (t, op) = false → GetInv (pushNotify lt { s with ready := s.ready.eraseIdx i } t x) := by
        intro x hng
        refine GetInv.notify h.waiters ?_
        rcases h.enough with he | he
        · exact .inl he
        · right
          have := (Heapq.push_perm lt s.queue x).length_eq
          simp only [List.length_cons] at this
          simp only [this]
          rw [hng] at hcount; simp at hcount; omega
      have hpop : ∀ x q, Heapq.pop lt s.queue = some (x, q) →
          GetInv (PriorityQueue.notify { s with ready := s.ready.eraseIdx i, queue := q, log := s.log ++ [.got t x] }) := by
        intro x q hq
        refine GetInv.notify h.waiters ?_
        rcases h.enough with he | he
        · exact .inl he
        · right
          have := (Heapq.pop_spec ho hg.heap hq).1.length_eq
          simp only [List.length_cons] at this
          show q.length ≤ ((s.ready.eraseIdx i).filter isGet).length + 1
          split at hcount <;> omega
      cases op with
      | put x =>
        simp only [exec]
        split
        · next hf =>
          rcases hr with hr | hr
          · have := (full_true hf).1; omega
          · have := hr _ (List.mem_of_getElem? hi); simp [isPut] at this
        · exact hpush x rfl
      | putNowait x =>
        simp only [exec]
        split
        · refine ⟨h.waiters, ?_⟩
          rcases h.enough with he | he
          · exact .inl he
          · right
            simp [isGet] at hcount
            show s.queue.length ≤ ((s.ready.eraseIdx i).filter isGet).length
            omega
        · exact hpush x rfl
      | get =>
        simp only [exec]
        split
        · next hq =>
          have hn := (Heapq.pop_none lt s.queue).1 hq
          refine ⟨?_, .inr ?_⟩
          · intro w hw
            simp only [wait, List.mem_append, List.mem_singleton] at hw
            rcases hw with hw | rfl
            · exact h.waiters w hw
            · rfl
          · simp [wait, hn]
        · next x q hq => exact hpop x q hq
      | getNowait =>
        simp only [exec]
        split
        · next hq =>
          have hn := (Heapq.pop_none lt s.queue).1 hq
          refine ⟨h.waiters, .inr ?_⟩
          simp [hn]
        · next x q hq => exact hpop x q hq

theorem notify_ready_mem {s : Sys τ α} {r : τ × Op α} (h : r ∈ (notify s).ready) : r ∈ s.ready ∨ r ∈ s.waiters := by
  unfold notify at h
  cases hw : s.waiters with
  | nil => rw [hw] at h; exact .inl h
  | cons w ws =>
    rw [hw] at h
    simp only [List.mem_append, List.mem_singleton] at h
    rcases h with h | rfl
    · exact .inl h
    · right; simp

theorem exec_ready_mem {lt : α → α → Bool} {m : Int} {s : Sys τ α} {t : τ} {op : Op α} {r : τ × Op α}
    (h : r ∈ (exec lt m s t op).ready) : r ∈ s.ready ∨ r ∈ s.waiters := by
  cases op with
  | put x =>
    simp only [exec] at h
    split at h
    · exact .inl h
    · exact notify_ready_mem (s := { s with queue := Heapq.push lt s.queue x, log := s.log ++ [.put t x] }) h
  | putNowait x =>
    simp only [exec] at h
    split at h
    · exact .inl h
    · exact notify_ready_mem (s := { s with queue := Heapq.push lt s.queue x, log := s.log ++ [.put t x] }) h
  | get =>
    simp only [exec] at h
    split at h
    · exact .inl h
    · rename_i x' q' _; exact notify_ready_mem (s := { s with queue := q', log := s.log ++ [.got t x'] }) h
  | getNowait =>
    simp only [exec] at h
    split at h
    · exact .inl h
    · rename_i x' q' _; exact notify_ready_mem (s := { s with queue := q', log := s.log ++ [.got t x'] }) h

/-- No call in the schedule is a blocking `put`. -/
def NoPut (as : List (Act τ α)) : Prop := ∀ t x, Act.call t (.put x) ∉ as

theorem run_getInv {lt : α → α → Bool} {m : Int} (ho : Heapq.Order lt) (as : List (Act τ α)) {s : Sys τ α} (hg : Good lt m s)
    (h : GetInv s) (hr : m ≤ 0 ∨ ((∀ r ∈ s.ready, isPut r = false) ∧ NoPut as)) : GetInv (run lt m s as) := by
  induction as generalizing s with
  | nil => exact h
  | cons a as ih =>
    refine ih (hg.step ho a) (h.step ho hg ?_ a) ?_
    · rcases hr with hr | hr
      · exact .inl hr
      · exact .inr hr.1
    · rcases hr with hr | ⟨h1, h2⟩
      · exact .inl hr
      · refine .inr ⟨?_, fun t x hm => h2 t x (List.mem_cons_of_mem _ hm)⟩
        intro r hrm
        cases a with
        | call t op =>
          simp only [PriorityQueue.step, List.mem_append, List.mem_singleton] at hrm
          rcases hrm with hrm | rfl
          · exact h1 r hrm
          · cases op with
            | put x => exact absurd List.mem_cons_self (h2 t x)
            | putNowait x => rfl
            | get => rfl
            | getNowait => rfl
        | run i =>
          simp only [PriorityQueue.step] at hrm
          split at hrm
          · exact h1 r hrm
          · next t op hi =>
            rcases exec_ready_mem hrm with hrm | hrm
            · exact h1 r (List.mem_of_mem_eraseIdx hrm)
            · have hw := h.waiters r hrm
              obtain ⟨t', op'⟩ := r
              cases op' <;> first | rfl | (simp [isGet] at hw)

/-- C34.  No wake-up is lost when no `put` can block: on an unbounded queue (`maxsize ≤ 0`, the only way the framework uses it), or
when all producers use `put_nowait`.  For a bounded queue with blocking producers the statement is false
(`C34_lost_wakeup_limit`). -/
theorem C34_wakeup {lt : α → α → Bool} (ho : Heapq.Order lt) (m : Int) (as : List (Act τ α)) (hp : m ≤ 0 ∨ NoPut as) :
    NoLostWakeup m (run lt m ({} : Sys τ α) as) := by
  have h := run_getInv ho as (good_init (τ := τ) lt m) ⟨by simp, .inl rfl⟩
    (hp.imp id (fun h => ⟨by simp, h⟩))
  refine ⟨?_, ?_⟩
  · rintro hq ⟨w, hw, -⟩
    rcases h.enough with he | he
    · rw [he] at hw; cases hw
    · have h0 : 0 < (run lt m ({} : Sys τ α) as).queue.length := by
        cases hqq : (run lt m ({} : Sys τ α) as).queue with
        | nil => exact absurd hqq hq
        | cons _ _ => simp
      have hpos : 0 < ((run lt m ({} : Sys τ α) as).ready.filter isGet).length := by omega
      obtain ⟨r, hr⟩ := List.length_pos_iff_exists_mem.1 hpos
      exact ⟨r, (List.mem_filter.1 hr).1, (List.mem_filter.1 hr).2⟩
  · rintro _ ⟨w, hw, hwp⟩
    have := h.waiters w hw
    obtain ⟨t, op⟩ := w
    cases op <;> simp [isGet, isPut] at this hwp

/-- The schedule of `C34_lost_wakeup_limit`. -/
def deadlock : List (Act String Nat) :=
  [.call "G1" .get, .run 0, .call "G2" .get, .run 0,   -- both getters block
   .call "P1" (.put 1), .call "P2" (.put 2), .run 0,    -- P1 puts and wakes G1; P2 is already queued for the lock
   .run 0,                                              -- P2: full, blocks
   .run 0,                                              -- G1 takes the item and wakes ... G2
   .run 0]                                              -- G2: empty, blocks again

/-- Outside the domain of C34: with `maxsize = 1`, two getters and two putters reach a state in which the queue is empty, one `put` and one
`get` are blocked and nothing is ready — a deadlock.  (Every lock hand-over in this schedule is the first-come-first-served one.) -/
theorem C34_lost_wakeup_limit :
    let s := run (fun a b => decide (a < b)) 1 ({} : Sys String Nat) deadlock
    s.queue = [] ∧ s.ready = [] ∧ s.waiters = [("P2", .put 2), ("G2", .get)] ∧ ¬ NoLostWakeup 1 s := by
  refine ⟨by decide, by decide, by decide, ?_⟩
  rintro ⟨-, h2⟩
  obtain ⟨r, hr, -⟩ := h2 (by decide) ⟨("P2", .put 2), by decide, rfl⟩
  have hn : (run (fun a b => decide (a < b)) 1 ({} : Sys String Nat) deadlock).ready = [] := by decide
  rw [hn] at hr; cases hr

/-- Non-vacuity of C34: an unbounded queue with two blocked getters; after a put one of them is ready. -/
example :
    let s := run (fun a b => decide (a < b)) 0 ({} : Sys String Nat)
      [.call "G1" .get, .run 0, .call "G2" .get, .run 0, .call "P1" (.put 1), .run 0]
    s.queue = [1] ∧ s.waiters = [("G2", .get)] ∧ s.ready = [("G1", .get)] := by decide

end Verif.PriorityQueue
