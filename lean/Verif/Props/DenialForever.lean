import Verif.Props.ExecLive

set_option linter.unusedSectionVars false
set_option linter.unusedSimpArgs false
set_option linter.unusedVariables false

/-!
# Denied for ever: C268

With at least `max_denial_tracking` events waiting, every one of them denied each time it is asked for, no event is ever aborted: the table of denial counts is full, so every denial evicts the
oldest count (`processor.py:287-289`), and by the time an event is asked for again its own count is gone.
-/

namespace Verif.Processor

namespace DenialForever

/-- The calls that enqueue the events `0 .. n-1` with priority 0. -/
def fill (n : Nat) : List Act := (List.range n).flatMap (fun i => [.enqueue i (some (.finite 0)) none, .enqPut 0])

/-- The `i`-th `process()` call, run to its end; the event is in the pile and the permission is denied. -/
def round (i : Nat) : List Act :=
  [.process, .go i true .deny, .go i true .deny, .go i true .deny, .go i true .deny, .go i true .deny]

/-- `k` such calls, one after the other. -/
def rounds (k : Nat) : List Act := (List.range k).flatMap round

/-- The queue entry of the `t`-th denial, if an event denied `j` times has priority `pr j`. -/
def ent (pr : Nat → Int) (n t : Nat) : Entry := (pr (t / n), t % n)

/-- The table of counts after `t` denials. -/
def tab (n m t : Nat) : Dict Nat Nat := (List.range' (t - m) (min m t)).map (fun j => (j % n, 1))

structure Inv (c : Cfg) (pr : Nat → Int) (tb : Nat → Dict Nat Nat) (n t : Nat) (s : Sys) : Prop where
  heap : Heapq.IsHeap entryLt s.queue
  queue : s.queue.Perm ((List.range' t n).map (ent pr n))
  den : s.denials = tb t
  cap : s.cap = c.queueCapacity
  calls : s.calls = List.replicate t { processed := 0, pc := .done }
  pend : s.pending = []
  noAbort : ∀ i id, .abort i id ∉ s.log
  cnt : s.log.countP (fun o => o matches .deny _ _) = t
  rounds : ∀ i e, .start i e ∉ s.log

theorem ent_lt {pr : Nat → Int} (hpr : ∀ a b, a < b → pr a < pr b) {n a b : Nat} (hn : 0 < n) (h : a < b) : entryLt (ent pr n a) (ent pr n b) = true := by
  have hle : a / n ≤ b / n := Nat.div_le_div_right (Nat.le_of_lt h)
  have ha := Nat.div_add_mod a n
  have hb := Nat.div_add_mod b n
  simp only [entryLt, ent, Bool.or_eq_true, Bool.and_eq_true, decide_eq_true_eq]
  rcases Nat.lt_or_eq_of_le hle with h1 | h1
  · left
    exact decide_eq_true (hpr _ _ h1)
  · right
    refine ⟨decide_eq_true (congrArg pr h1), decide_eq_true ?_⟩
    rw [h1] at ha
    omega

theorem ent_next {pr : Nat → Int} {n t x : Nat} (hn : 0 < n) (hx : pr (t / n) + x = pr (t / n + 1)) : ((ent pr n t).1 + (x : Int), (ent pr n t).2) = ent pr n (t + n) := by
  simp only [ent, Nat.add_div_right t hn, Nat.add_mod_right, hx]

/-- The queue gives the entries in turn. -/
theorem pop_next {pr : Nat → Int} (hpr : ∀ a b, a < b → pr a < pr b) {n t : Nat} {q : List Entry} (hn : 0 < n) (hh : Heapq.IsHeap entryLt q) (hq : q.Perm ((List.range' t n).map (ent pr n))) :
    ∃ r, Heapq.pop entryLt q = some (ent pr n t, r) ∧ Heapq.IsHeap entryLt r ∧ r.Perm ((List.range' (t + 1) (n - 1)).map (ent pr n)) := by
  obtain ⟨n', rfl⟩ : ∃ n', n = n' + 1 := ⟨n - 1, by omega⟩
  cases hp : Heapq.pop entryLt q with
  | none =>
    rw [Heapq.pop_none] at hp
    subst hp
    have := hq.length_eq
    simp at this
  | some p =>
    obtain ⟨e, r⟩ := p
    obtain ⟨h1, h2, h3⟩ := Heapq.pop_spec entryOrder hh hp
    have hmem : e ∈ (List.range' t (n' + 1)).map (ent pr (n' + 1)) := hq.mem_iff.1 (h1.mem_iff.2 (by simp))
    have he : e = ent pr (n' + 1) t := by
      obtain ⟨j, hj, rfl⟩ := List.mem_map.1 hmem
      rw [List.mem_range'_1] at hj
      rcases Nat.lt_or_eq_of_le hj.1 with hlt | heq
      · have h0 : ent pr (n' + 1) t ∈ q := hq.mem_iff.2 (List.mem_map.2 ⟨t, by rw [List.mem_range'_1]; omega, rfl⟩)
        have := h3 _ h0
        simp only [Heapq.le] at this
        rw [ent_lt hpr hn hlt] at this
        cases this
      · rw [heq]
    subst he
    refine ⟨r, rfl, h2, ?_⟩
    have h4 := h1.symm.trans hq
    rw [List.range'_succ, List.map_cons] at h4
    exact (List.perm_cons _).1 h4

theorem get_tab {n id : Nat} (l : List Nat) (h : ∀ j ∈ l, j % n ≠ id) : Dict.get? (l.map (fun j => (j % n, 1)) : Dict Nat Nat) id = none := by
  rw [Dict.get?_eq_none_iff]
  intro hk
  simp only [Dict.keys, List.map_map, List.mem_map] at hk
  obtain ⟨j, hj, e⟩ := hk
  exact h j hj e

theorem set_tab {n id : Nat} (l : List Nat) (h : ∀ j ∈ l, j % n ≠ id) :
    Dict.set (l.map (fun j => (j % n, 1)) : Dict Nat Nat) id 1 = l.map (fun j => (j % n, 1)) ++ [(id, 1)] := by
  induction l with
  | nil => rfl
  | cons a l ih =>
    have h1 : a % n ≠ id := h a (by simp)
    have := ih (fun j hj => h j (by simp [hj]))
    simp only [List.map_cons, List.cons_append, Dict.set] at this ⊢
    rw [if_neg (by simpa using h1), this]

theorem evict_tab {c : Cfg} {n t : Nat} (hm : 1 ≤ c.maxDenial) :
    evict c (tab n c.maxDenial t) = (List.range' (t + 1 - c.maxDenial) (min (c.maxDenial - 1) t)).map (fun j => (j % n, 1)) := by
  simp only [evict, tab, List.length_map, List.length_range']
  by_cases h : c.maxDenial ≤ t
  · rw [if_pos (by omega)]
    obtain ⟨m', hm'⟩ : ∃ m', c.maxDenial = m' + 1 := ⟨c.maxDenial - 1, by omega⟩
    rw [hm'] at h ⊢
    rw [Nat.min_eq_left h, List.range'_succ, List.map_cons, List.tail_cons, Nat.min_eq_left (by omega)]
    have : t - (m' + 1) + 1 = t + 1 - (m' + 1) := by omega
    rw [this]
    rfl
  · rw [if_neg (by omega)]
    have e1 : t - c.maxDenial = t + 1 - c.maxDenial := by omega
    have e2 : min c.maxDenial t = min (c.maxDenial - 1) t := by omega
    rw [e1, e2]

theorem mod_ne {n t j : Nat} (h1 : j < t) (h2 : t < j + n) : j % n ≠ t % n := by
  intro h
  have a := Nat.div_add_mod j n
  have b := Nat.div_add_mod t n
  rw [h] at a
  have hlt : j / n < t / n := by
    rcases Nat.lt_or_ge (j / n) (t / n) with h3 | h3
    · exact h3
    · have := Nat.mul_le_mul_left n h3
      omega
  have := Nat.mul_le_mul_left n (Nat.succ_le_of_lt hlt)
  rw [Nat.mul_succ] at this
  omega

theorem tab_out {c : Cfg} {n t : Nat} (hn : c.maxDenial ≤ n) : ∀ j ∈ List.range' (t + 1 - c.maxDenial) (min (c.maxDenial - 1) t), j % n ≠ t % n := by
  intro j hj
  rw [List.mem_range'_1] at hj
  exact mod_ne (by omega) (by omega)

theorem nextCount_tab {c : Cfg} {n t : Nat} (hm : 1 ≤ c.maxDenial) (hn : c.maxDenial ≤ n) : nextCount c (tab n c.maxDenial t) (t % n) = 1 := by
  simp only [nextCount, evict_tab hm, get_tab _ (tab_out hn), Option.getD_none]

theorem next_tab {c : Cfg} {n t : Nat} (hm : 1 ≤ c.maxDenial) (hn : c.maxDenial ≤ n) :
    Dict.set (evict c (tab n c.maxDenial t)) (t % n) 1 = tab n c.maxDenial (t + 1) := by
  rw [evict_tab hm, set_tab _ (tab_out hn)]
  have e : min c.maxDenial (t + 1) = min (c.maxDenial - 1) t + 1 := by omega
  rw [tab, e, List.range'_concat, List.map_append]
  have e2 : t + 1 - c.maxDenial + 1 * min (c.maxDenial - 1) t = t := by omega
  rw [e2]
  rfl

/-- One `process()` call in which the event at the head of the queue is denied, for less than the third time in the table. -/
theorem round_inv {c : Cfg} {pr : Nat → Int} (hpr : ∀ a b, a < b → pr a < pr b) {tb : Nat → Dict Nat Nat} {n t x : Nat} {s : Sys} (hv : c.Valid) (hn0 : 0 < n)
    (hx3 : x < 3) (hx1 : nextCount c (tb t) (t % n) = x) (hx2 : Dict.set (evict c (tb t)) (t % n) x = tb (t + 1)) (hx : pr (t / n) + x = pr (t / n + 1))
    (h : Inv c pr tb n t s) : Inv c pr tb n (t + 1) (seqRun c s (round t)) := by
  obtain ⟨v1, v2, v3, v4⟩ := hv
  obtain ⟨q, cap, d, cs, p, l⟩ := s
  obtain ⟨hh, hq, hd, hc, hcs, hp, hna, hcnt, hst⟩ := h
  simp only at hh hq hd hc hcs hp hna hcnt hst
  obtain ⟨r, hpop, hr, hrq⟩ := pop_next hpr hn0 hh hq
  have hall : cs.all Call.ended = true := by
    rw [hcs, List.all_eq_true]
    intro x hx
    rw [List.eq_of_mem_replicate hx]
    rfl
  have hlen : cs.length = t := by rw [hcs, List.length_replicate]
  have hqne : q ≠ [] := by
    rintro rfl
    have := hq.length_eq
    simp at this
    omega
  have hg : ∀ x : Call, (cs ++ [x])[t]? = some x := fun x => by rw [← hlen]; simp
  have hset : ∀ x y : Call, (cs ++ [x]).set t y = cs ++ [y] := fun x y => by rw [← hlen]; simp
  have e0 : seqStep c ⟨q, cap, d, cs, p, l⟩ .process = ⟨q, cap, d, cs ++ [{ processed := 0, pc := .check }], p, l⟩ := by
    simp only [seqStep, hall, if_true, step]
  have e1 : seqStep c ⟨q, cap, d, cs ++ [{ processed := 0, pc := .check }], p, l⟩ (.go t true .deny) = ⟨q, cap, d, cs ++ [{ processed := 0, pc := .getting }], p, l⟩ := by
    simp only [seqStep, step, hg, advance, setCall, hset]
    rw [if_pos ⟨by rw [hc]; omega, hqne⟩]
  have e2 : seqStep c ⟨q, cap, d, cs ++ [{ processed := 0, pc := .getting }], p, l⟩ (.go t true .deny)
      = ⟨r, cap, d, cs ++ [{ processed := 0, pc := .asking (ent pr n t) }], p, l ++ [.take t (ent pr n t)]⟩ := by
    simp only [seqStep, step, hg, advance, hpop, setCall, hset, Sys.obs, if_true]
  have e3 : seqStep c ⟨r, cap, d, cs ++ [{ processed := 0, pc := .asking (ent pr n t) }], p, l ++ [.take t (ent pr n t)]⟩ (.go t true .deny)
      = ⟨r, cap, tb (t + 1), cs ++ [{ processed := 0, pc := .requeueing (ent pr n t) x }], p, l ++ [.take t (ent pr n t)] ++ [.deny t (t % n)]⟩ := by
    have x1 : nextCount c d (ent pr n t).2 = x := by rw [hd]; exact hx1
    have x2 : Dict.set (evict c d) (ent pr n t).2 x = tb (t + 1) := by rw [hd]; exact hx2
    simp only [seqStep, step, hg, advance, deny, x1, x2, setCall, hset, Sys.obs]
    rw [if_neg (by omega)]
    rfl
  have e4 : seqStep c ⟨r, cap, tb (t + 1), cs ++ [{ processed := 0, pc := .requeueing (ent pr n t) x }], p, l ++ [.take t (ent pr n t)] ++ [.deny t (t % n)]⟩ (.go t true .deny)
      = ⟨Heapq.push entryLt r (ent pr n (t + n)), cap, tb (t + 1), cs ++ [{ processed := 0, pc := .draining }], p,
          l ++ [.take t (ent pr n t)] ++ [.deny t (t % n)] ++ [.requeue t (ent pr n (t + n))]⟩ := by
    simp only [seqStep, step, hg, advance, ent_next hn0 hx, setCall, hset, Sys.obs]
  have e5 : seqStep c ⟨Heapq.push entryLt r (ent pr n (t + n)), cap, tb (t + 1), cs ++ [{ processed := 0, pc := .draining }], p,
          l ++ [.take t (ent pr n t)] ++ [.deny t (t % n)] ++ [.requeue t (ent pr n (t + n))]⟩ (.go t true .deny)
      = ⟨Heapq.push entryLt r (ent pr n (t + n)), cap, tb (t + 1), cs ++ [{ processed := 0, pc := .done }], p,
          l ++ [.take t (ent pr n t)] ++ [.deny t (t % n)] ++ [.requeue t (ent pr n (t + n))]⟩ := by
    simp only [seqStep, step, hg, advance, setCall, hset, Sys.obs]
    rw [if_neg (by omega)]
  simp only [seqRun, round, List.foldl_cons, List.foldl_nil, e0, e1, e2, e3, e4, e5]
  refine ⟨Heapq.push_heap entryOrder hr _, ?_, rfl, hc, ?_, hp, ?_, ?_, ?_⟩
  · refine (Heapq.push_perm entryLt r _).trans ?_
    obtain ⟨n', rfl⟩ : ∃ n', n = n' + 1 := ⟨n - 1, by omega⟩
    have e : List.range' (t + 1) (n' + 1) = List.range' (t + 1) n' ++ [t + (n' + 1)] := by
      rw [List.range'_concat]
      congr 2
      omega
    rw [e, List.map_append, List.map_cons, List.map_nil]
    exact (hrq.cons _).trans (List.perm_append_singleton _ _).symm
  · rw [hcs, List.replicate_succ']
  · intro i id hm
    simp only [List.mem_append, List.mem_singleton, reduceCtorEq, or_false] at hm
    exact hna i id hm
  · simp only [List.countP_append, hcnt]
    rfl
  · intro i e hm
    simp only [List.mem_append, List.mem_singleton, reduceCtorEq, or_false] at hm
    exact hst i e hm

theorem rounds_inv {c : Cfg} {n : Nat} {s : Sys} (hv : c.Valid) (hn : c.maxDenial ≤ n) (h : Inv c (fun q => (q : Int)) (tab n c.maxDenial) n 0 s) (k : Nat) :
    Inv c (fun q => (q : Int)) (tab n c.maxDenial) n k (seqRun c s (rounds k)) := by
  induction k with
  | zero => exact h
  | succ k ih =>
    have e : rounds (k + 1) = rounds k ++ round k := by simp [rounds, List.range_succ, List.flatMap_append]
    rw [e, seqRun, List.foldl_append]
    exact round_inv (x := 1) (fun a b hab => Int.ofNat_lt.2 hab) hv (Nat.lt_of_lt_of_le hv.2.2.2 hn) (by omega) (nextCount_tab hv.2.2.2 hn) (next_tab hv.2.2.2 hn) rfl ih

/-- Filling the queue. -/
theorem fill_inv {c : Cfg} (n : Nat) (hq : n ≤ c.maxQueue) :
    ∃ q l, seqRun c (init c) (fill n) = ⟨q, c.queueCapacity, [], [], [], l⟩ ∧ Heapq.IsHeap entryLt q ∧ q.Perm ((List.range n).map (fun i => ((0 : Int), i))) ∧
      l = (List.range n).map (fun i => .enq ((0 : Int), i)) := by
  induction n with
  | zero => exact ⟨[], [], rfl, Heapq.heap_nil _, List.Perm.refl _, rfl⟩
  | succ n ih =>
    obtain ⟨q, l, e, hh, hp, hl⟩ := ih (by omega)
    have ef : fill (n + 1) = fill n ++ [.enqueue n (some (.finite 0)) none, .enqPut 0] := by simp [fill, List.range_succ, List.flatMap_append]
    have hlen : q.length = n := by simpa using hp.length_eq
    refine ⟨Heapq.push entryLt q (0, n), l ++ [.enq (0, n)], ?_, Heapq.push_heap entryOrder hh _, ?_, ?_⟩
    · rw [ef, seqRun, List.foldl_append]
      rw [seqRun] at e
      rw [e]
      simp only [List.foldl_cons, List.foldl_nil, seqStep, step, enqueue]
      rw [if_neg (by omega)]
      rfl
    · refine (Heapq.push_perm entryLt q _).trans ?_
      rw [List.range_succ, List.map_append]
      exact (hp.cons _).trans (List.perm_append_singleton _ _).symm
    · rw [hl, List.range_succ, List.map_append]
      rfl

theorem start_inv {c : Cfg} {pr : Nat → Int} (hpr : pr 0 = 0) {tb : Nat → Dict Nat Nat} (htb : tb 0 = []) {n : Nat} (hq : n ≤ c.maxQueue) (hn : 0 < n) :
    Inv c pr tb n 0 (seqRun c (init c) (fill n)) := by
  obtain ⟨q, l, e, hh, hp, hl⟩ := fill_inv n hq
  rw [e]
  refine ⟨hh, ?_, htb.symm, rfl, rfl, rfl, ?_, ?_, ?_⟩
  · refine hp.trans (List.Perm.of_eq ?_)
    rw [List.range_eq_range']
    refine List.map_congr_left (fun j hj => ?_)
    rw [List.mem_range'_1] at hj
    simp only [ent, Nat.div_eq_of_lt (show j < n by omega), Nat.mod_eq_of_lt (show j < n by omega), hpr]
  · intro i id hm
    rw [hl] at hm
    simp at hm
  · rw [hl, List.countP_eq_zero]
    intro o ho
    obtain ⟨j, _, rfl⟩ := List.mem_map.1 ho
    simp
  · intro i e hm
    rw [hl] at hm
    simp at hm

/-! ### Fewer events than the limit -/

/-- Priority after `q` denials (back-off 1, then 2). -/
def pr2 (q : Nat) : Int := if q ≤ 1 then (q : Int) else (q : Int) + 1

/-- The table of counts after `t ≤ 2 * n` denials. -/
def tab2 (n t : Nat) : Dict Nat Nat := (List.range (min t n)).map (fun j => (j, if j + n < t then 2 else 1))

theorem pr2_mono (a b : Nat) (h : a < b) : pr2 a < pr2 b := by
  simp only [pr2]
  split <;> split <;> omega

theorem get_map (l : List Nat) (f : Nat → Nat) (a : Nat) : Dict.get? (l.map (fun j => (j, f j)) : Dict Nat Nat) a = if a ∈ l then some (f a) else none := by
  induction l with
  | nil => rfl
  | cons b l ih =>
    rw [List.map_cons, Dict.get?_cons, ih]
    by_cases h : b = a
    · simp [h]
    · have h' : ¬ a = b := fun e => h e.symm
      simp [h, h']

theorem set_map (l : List Nat) (f : Nat → Nat) (a v : Nat) (hn : l.Nodup) (ha : a ∈ l) :
    Dict.set (l.map (fun j => (j, f j)) : Dict Nat Nat) a v = l.map (fun j => (j, if j = a then v else f j)) := by
  induction l with
  | nil => simp at ha
  | cons b l ih =>
    rw [List.nodup_cons] at hn
    simp only [List.map_cons, Dict.set]
    by_cases h : b = a
    · subst h
      simp only [if_true, List.cons.injEq, true_and]
      refine List.map_congr_left (fun j hj => ?_)
      have hne : j ≠ b := by
        rintro rfl
        exact hn.1 hj
      rw [if_neg hne]
    · rw [if_neg h, if_neg h, ih hn.2 ((List.mem_cons.1 ha).resolve_left (fun e => h e.symm))]

theorem set_new (l : List Nat) (f : Nat → Nat) (a v : Nat) (ha : a ∉ l) :
    Dict.set (l.map (fun j => (j, f j)) : Dict Nat Nat) a v = l.map (fun j => (j, f j)) ++ [(a, v)] := by
  induction l with
  | nil => rfl
  | cons b l ih =>
    rw [List.mem_cons, not_or] at ha
    simp only [List.map_cons, Dict.set, List.cons_append]
    rw [if_neg (fun e => ha.1 e.symm), ih ha.2]

theorem evict_tab2 {c : Cfg} {n t : Nat} (hn : n < c.maxDenial) : evict c (tab2 n t) = tab2 n t := by
  simp only [evict, tab2, List.length_map, List.length_range]
  rw [if_neg (by omega)]

/-- The count of the `t`-th denial. -/
theorem nextCount_tab2 {c : Cfg} {n t : Nat} (hn : n < c.maxDenial) (h0 : 0 < n) (ht : t ≤ 2 * n) : nextCount c (tab2 n t) (t % n) = t / n + 1 := by
  simp only [nextCount, evict_tab2 hn]
  simp only [tab2, get_map, List.mem_range]
  rcases Nat.lt_or_ge t n with h | h
  · rw [Nat.mod_eq_of_lt h, Nat.div_eq_of_lt h, if_neg (by omega)]
    rfl
  · rcases Nat.lt_or_ge t (2 * n) with h2 | h2
    · have e1 : t % n = t - n := by rw [Nat.mod_eq_sub_mod h, Nat.mod_eq_of_lt (by omega)]
      have e2 : t / n = 1 := Nat.div_eq_of_lt_le (by omega) (by omega)
      rw [e1, e2, if_pos (by omega), if_neg (by omega)]
      rfl
    · have e : t = 2 * n := by omega
      subst e
      rw [Nat.mul_mod_left, Nat.mul_div_cancel _ h0, if_pos (by omega), if_pos (by omega)]
      rfl

theorem next_tab2 {c : Cfg} {n t : Nat} (hn : n < c.maxDenial) (h0 : 0 < n) (ht : t < 2 * n) :
    Dict.set (evict c (tab2 n t)) (t % n) (t / n + 1) = tab2 n (t + 1) := by
  rw [evict_tab2 hn]
  rcases Nat.lt_or_ge t n with h | h
  · rw [Nat.mod_eq_of_lt h, Nat.div_eq_of_lt h]
    have e1 : min t n = t := by omega
    have e2 : min (t + 1) n = t + 1 := by omega
    simp only [tab2, e1, e2]
    rw [set_new _ _ _ _ (by simp), List.range_succ, List.map_append, List.map_cons, List.map_nil, if_neg (by omega)]
    congr 1
    refine List.map_congr_left (fun j hj => ?_)
    rw [List.mem_range] at hj
    rw [if_neg (by omega), if_neg (by omega)]
  · have e1 : t % n = t - n := by rw [Nat.mod_eq_sub_mod h, Nat.mod_eq_of_lt (by omega)]
    have e2 : t / n = 1 := Nat.div_eq_of_lt_le (by omega) (by omega)
    have e3 : min t n = n := by omega
    have e4 : min (t + 1) n = n := by omega
    simp only [tab2, e3, e4]
    rw [e1, e2, set_map _ _ _ _ List.nodup_range (by rw [List.mem_range]; omega)]
    refine List.map_congr_left (fun j hj => ?_)
    congr 1
    by_cases h5 : j = t - n
    · rw [if_pos h5, if_pos (by omega)]
    · rw [if_neg h5]
      by_cases h6 : j + n < t
      · rw [if_pos h6, if_pos (by omega)]
      · rw [if_neg h6, if_neg (by omega)]

theorem rounds_inv2 {c : Cfg} {n : Nat} {s : Sys} (hv : c.Valid) (hn : n < c.maxDenial) (h0 : 0 < n) (h : Inv c pr2 (tab2 n) n 0 s) (k : Nat) (hk : k ≤ 2 * n) :
    Inv c pr2 (tab2 n) n k (seqRun c s (rounds k)) := by
  induction k with
  | zero => exact h
  | succ k ih =>
    have e : rounds (k + 1) = rounds k ++ round k := by simp [rounds, List.range_succ, List.flatMap_append]
    rw [e, seqRun, List.foldl_append]
    have hd : k / n < 2 := Nat.div_lt_of_lt_mul (by rw [Nat.mul_comm]; omega)
    refine round_inv (x := k / n + 1) pr2_mono hv h0 (by omega) (nextCount_tab2 hn h0 (by omega)) (next_tab2 hn h0 (by omega)) ?_ (ih (by omega))
    generalize k / n = q at hd
    have hq : q = 0 ∨ q = 1 := by omega
    rcases hq with rfl | rfl <;> rfl

/-- The call in which the count reaches three. -/
theorem round_abort {c : Cfg} {pr : Nat → Int} (hpr : ∀ a b, a < b → pr a < pr b) {tb : Nat → Dict Nat Nat} {n t : Nat} {s : Sys} (hv : c.Valid) (hn0 : 0 < n)
    (hx1 : nextCount c (tb t) (t % n) = 3) (h : Inv c pr tb n t s) : .abort t (t % n) ∈ (seqRun c s (round t)).log := by
  obtain ⟨v1, v2, v3, v4⟩ := hv
  obtain ⟨q, cap, d, cs, p, l⟩ := s
  obtain ⟨hh, hq, hd, hc, hcs, hp, hna, hcnt, hst⟩ := h
  simp only at hh hq hd hc hcs hp hna hcnt hst
  obtain ⟨r, hpop, hr, hrq⟩ := pop_next hpr hn0 hh hq
  have hall : cs.all Call.ended = true := by
    rw [hcs, List.all_eq_true]
    intro x hx
    rw [List.eq_of_mem_replicate hx]
    rfl
  have hlen : cs.length = t := by rw [hcs, List.length_replicate]
  have hqne : q ≠ [] := by
    rintro rfl
    have := hq.length_eq
    simp at this
    omega
  have hg : ∀ x : Call, (cs ++ [x])[t]? = some x := fun x => by rw [← hlen]; simp
  have hset : ∀ x y : Call, (cs ++ [x]).set t y = cs ++ [y] := fun x y => by rw [← hlen]; simp
  have e0 : seqStep c ⟨q, cap, d, cs, p, l⟩ .process = ⟨q, cap, d, cs ++ [{ processed := 0, pc := .check }], p, l⟩ := by
    simp only [seqStep, hall, if_true, step]
  have e1 : seqStep c ⟨q, cap, d, cs ++ [{ processed := 0, pc := .check }], p, l⟩ (.go t true .deny) = ⟨q, cap, d, cs ++ [{ processed := 0, pc := .getting }], p, l⟩ := by
    simp only [seqStep, step, hg, advance, setCall, hset]
    rw [if_pos ⟨by rw [hc]; omega, hqne⟩]
  have e2 : seqStep c ⟨q, cap, d, cs ++ [{ processed := 0, pc := .getting }], p, l⟩ (.go t true .deny)
      = ⟨r, cap, d, cs ++ [{ processed := 0, pc := .asking (ent pr n t) }], p, l ++ [.take t (ent pr n t)]⟩ := by
    simp only [seqStep, step, hg, advance, hpop, setCall, hset, Sys.obs, if_true]
  have x1 : nextCount c d (ent pr n t).2 = 3 := by rw [hd]; exact hx1
  have x3 : ∀ x, ((ent pr n t).2 = x) → x = t % n := fun x hx => hx.symm
  simp only [seqRun, round, List.foldl_cons, List.foldl_nil, e0, e1, e2]
  simp only [seqStep, step, hg, advance, deny, x1, setCall, hset, Sys.obs, Nat.le_refl, if_true]
  rw [if_neg (by omega)]
  simp [ent]

end DenialForever

open DenialForever

/-- C268, refuted for every processor whose queue can hold `max_denial_tracking` events: enqueue `n ≥ max_denial_tracking` events and let `process()` be called again and again, as `execute()` does, the
permission being denied every time.  After any number `k` of calls there have been `k` denials, all `n` events are still in the queue, and none has been aborted (or started). -/
theorem C268_never_aborted_violation (c : Cfg) (hv : c.Valid) (n : Nat) (hn : c.maxDenial ≤ n) (hq : n ≤ c.maxQueue) (k : Nat) :
    let s := seqRun c (init c) (fill n ++ rounds k)
    s.log.countP (fun o => o matches .deny _ _) = k ∧ (∀ id, id < n → ∃ p, (p, id) ∈ s.queue) ∧ s.queue.length = n ∧ (∀ i id, .abort i id ∉ s.log) ∧ (∀ i e, .start i e ∉ s.log) := by
  intro s
  have hn0 : 0 < n := Nat.lt_of_lt_of_le hv.2.2.2 hn
  have h : Inv c (fun q => (q : Int)) (tab n c.maxDenial) n k s := by
    have e : s = seqRun c (seqRun c (init c) (fill n)) (rounds k) := by simp only [s, seqRun, List.foldl_append]
    rw [e]
    exact rounds_inv hv hn (start_inv rfl (by simp [tab]) hq hn0) k
  refine ⟨h.cnt, ?_, by simpa using h.queue.length_eq, h.noAbort, h.rounds⟩
  intro id hid
  -- a number in `[k, k + n)` congruent to `id`
  have hex : ∃ j, k ≤ j ∧ j < k + n ∧ j % n = id := by
    have hb := Nat.div_add_mod k n
    have hlt := Nat.mod_lt k hn0
    rcases Nat.lt_or_ge id (k % n) with h1 | h1
    · refine ⟨n * (k / n) + n + id, by omega, by omega, ?_⟩
      rw [Nat.add_assoc, Nat.mul_add_mod, Nat.add_mod_left, Nat.mod_eq_of_lt hid]
    · refine ⟨n * (k / n) + id, by omega, by omega, ?_⟩
      rw [Nat.mul_add_mod, Nat.mod_eq_of_lt hid]
  obtain ⟨j, h1, h2, h3⟩ := hex
  refine ⟨((j / n : Nat) : Int), h.queue.mem_iff.2 (List.mem_map.2 ⟨j, by rw [List.mem_range'_1]; omega, ?_⟩)⟩
  simp only [ent, h3]

/-- C268, exact: `n` events (as many as the queue takes) are enqueued and every permission check denies.  Some event is aborted eventually exactly if there are fewer than `max_denial_tracking` of them. -/
theorem C268_exact_partial (c : Cfg) (hv : c.Valid) (n : Nat) (h0 : 0 < n) (hq : n ≤ c.maxQueue) :
    (∃ k i id, .abort i id ∈ (seqRun c (init c) (fill n ++ rounds k)).log) ↔ n < c.maxDenial := by
  constructor
  · rintro ⟨k, i, id, h⟩
    rcases Nat.lt_or_ge n c.maxDenial with h1 | h1
    · exact h1
    · exact absurd h ((C268_never_aborted_violation c hv n h1 hq k).2.2.2.1 i id)
  · intro hn
    have h := rounds_inv2 hv hn h0 (start_inv (c := c) (pr := pr2) (tb := tab2 n) rfl (by simp [tab2]) hq h0) (2 * n) (Nat.le_refl _)
    have e : rounds (2 * n + 1) = rounds (2 * n) ++ round (2 * n) := by simp [rounds, List.range_succ, List.flatMap_append]
    refine ⟨2 * n + 1, 2 * n, (2 * n) % n, ?_⟩
    have hx : nextCount c (tab2 n (2 * n)) ((2 * n) % n) = 3 := by
      rw [nextCount_tab2 hn h0 (Nat.le_refl _), Nat.mul_div_cancel _ h0]
    have := round_abort pr2_mono hv h0 hx h
    rw [e]
    simp only [seqRun, List.foldl_append] at this ⊢
    exact this

example : (⟨100, 100, 2⟩ : Cfg).Valid := by simp [Cfg.Valid]
example : (seqRun ⟨100, 100, 2⟩ (init ⟨100, 100, 2⟩) (fill 2 ++ rounds 6)).queue = [(3, 0), (3, 1)] := by decide +kernel
/-- With one event less than the limit the third denial aborts. -/
example : (seqRun ⟨100, 100, 3⟩ (init ⟨100, 100, 3⟩) (fill 2 ++ rounds 6)).queue = [] := by decide +kernel

end Verif.Processor
