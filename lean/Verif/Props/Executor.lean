import Verif.Lemmas.Executor
import Verif.Props.Processor

/-!
# Executor: C30–C32
-/

set_option linter.unusedSectionVars false
set_option linter.unusedSimpArgs false
set_option linter.unusedVariables false

namespace Verif.Executor

open Verif.Event (Status)

variable {γ : Type} [DecidableEq γ]

/-! ### How often the processor still has an id to deal with -/

def isId (id : Nat) (e : Processor.Entry) : Bool := e.2 == id

def holds (id : Nat) (cl : Processor.Call) : Bool :=
  match cl.held with
  | some e => isId id e
  | none => false

/-- Queued, about to be queued, or held by a `process()` call. -/
def load (p : Processor.Sys) (id : Nat) : Nat :=
  p.queue.countP (isId id) + p.pending.countP (isId id) + p.calls.countP (holds id)

def filed (pc : Processor.PC) (id : Nat) : Bool :=
  match fileOf pc with
  | some x => x.1 == id
  | none => false

theorem load_advance (c : Processor.Cfg) (s : Processor.Sys) (hh : Heapq.IsHeap Processor.entryLt s.queue) {i : Nat}
    {cl : Processor.Call} (hi : s.calls[i]? = some cl) (found : Bool) (perm : Processor.Perm) (id : Nat) :
    load (Processor.advance c s i cl found perm) id + (if filed cl.pc id then 1 else 0) ≤ load s id ∧
    (found = true → perm ≠ .raise →
      load (Processor.advance c s i cl found perm) id + (if filed cl.pc id then 1 else 0) = load s id) := by
  have key : ∀ cl' : Processor.Call, (s.calls.set i cl').countP (holds id) + (if holds id cl then 1 else 0) =
      s.calls.countP (holds id) + (if holds id cl' then 1 else 0) := fun cl' => Processor.countP_set (holds id) cl' hi
  unfold Processor.advance
  cases hpc : cl.pc with
  | check =>
    simp only [filed, fileOf]
    split
    · have := key { cl with pc := .getting }
      simp [holds, Processor.Call.held, hpc] at this
      simp [load, Processor.setCall, this]
      try omega
    · have := key { cl with pc := .draining }
      simp [holds, Processor.Call.held, hpc] at this
      simp [load, Processor.setCall, this]
      try omega
  | getting =>
    simp only [filed, fileOf]
    cases hq : Heapq.pop Processor.entryLt s.queue with
    | none => simp
    | some r =>
      obtain ⟨e, q⟩ := r
      have hlen : s.queue.countP (isId id) = q.countP (isId id) + (if isId id e then 1 else 0) := by
        rw [(Heapq.pop_spec Processor.entryOrder hh hq).1.countP_eq, List.countP_cons]
      simp only
      split
      · have := key { cl with pc := .asking e }
        cases hb : isId id e <;> simp [holds, Processor.Call.held, hpc, hb] at this <;>
          simp [load, Processor.setCall, Processor.Sys.obs] <;> (try simp [hb] at hlen) <;> omega
      · next hf =>
        have := key { cl with pc := .check }
        simp [holds, Processor.Call.held, hpc] at this
        refine ⟨?_, fun h => absurd h hf⟩
        simp [load, Processor.setCall, Processor.Sys.obs, this]; omega
  | asking e =>
    simp only [filed, fileOf]
    cases perm with
    | grant =>
      have := key { cl with pc := .granted e }
      cases hb : isId id e <;> simp [holds, Processor.Call.held, hpc, hb] at this <;>
        simp [load, Processor.setCall, Processor.Sys.obs] <;> omega
    | deny =>
      simp only [Processor.deny]
      split
      · have := key { cl with pc := .aborting e }
        cases hb : isId id e <;> simp [holds, Processor.Call.held, hpc, hb] at this <;>
          simp [load, Processor.setCall, Processor.Sys.obs] <;> omega
      · have := key { cl with pc := .requeueing e (Processor.nextCount c s.denials e.2) }
        cases hb : isId id e <;> simp [holds, Processor.Call.held, hpc, hb] at this <;>
          simp [load, Processor.setCall, Processor.Sys.obs] <;> omega
    | raise =>
      have := key { cl with pc := .failed }
      simp [holds, Processor.Call.held, hpc] at this
      refine ⟨?_, fun _ h => absurd rfl h⟩
      simp [load, Processor.setCall, Processor.Sys.obs]; omega
  | granted e =>
    have := key { processed := cl.processed + 1, pc := .check }
    simp [holds, Processor.Call.held, hpc] at this
    have e1 : filed (.granted e) id = isId id e := rfl
    simp only [e1]
    simp [load, Processor.setCall, Processor.Sys.obs]; omega
  | aborting e =>
    have := key { cl with pc := .draining }
    simp [holds, Processor.Call.held, hpc] at this
    have e1 : filed (.aborting e) id = isId id e := rfl
    simp only [e1]
    simp [load, Processor.setCall, Processor.Sys.obs]; omega
  | requeueing e n =>
    have := key { cl with pc := .draining }
    simp [holds, Processor.Call.held, hpc] at this
    have hl := (Heapq.push_perm Processor.entryLt s.queue (e.1 + n, e.2)).countP_eq (isId id)
    rw [List.countP_cons] at hl
    have e2 : isId id (e.1 + (n : Int), e.2) = isId id e := rfl
    rw [e2] at hl
    simp only [filed, fileOf]
    simp [load, Processor.setCall, Processor.Sys.obs, hl]; omega
  | draining =>
    have := key { cl with pc := .done }
    simp [holds, Processor.Call.held, hpc] at this
    simp only [filed, fileOf]
    split
    · simp [load, Processor.setCall, Processor.Sys.obs]; omega
    · simp [load, Processor.setCall, Processor.Sys.obs]; omega
  | done => simp [filed, fileOf]
  | failed => simp [filed, fileOf]

theorem countP_eraseIdx {α : Type} (p : α → Bool) {l : List α} {k : Nat} {x : α} (h : l[k]? = some x) :
    (l.eraseIdx k).countP p + (if p x then 1 else 0) = l.countP p := by
  induction l generalizing k with
  | nil => simp at h
  | cons z l ih =>
    cases k with
    | zero =>
      simp only [List.getElem?_cons_zero, Option.some.injEq] at h; subst h
      simp only [List.eraseIdx_cons_zero, List.countP_cons]
    | succ k =>
      simp only [List.getElem?_cons_succ] at h
      have := ih h
      simp only [List.eraseIdx_cons_succ, List.countP_cons]
      omega

theorem load_enqPut (s : Processor.Sys) (k id : Nat) : load (Processor.enqPut s k) id = load s id := by
  unfold Processor.enqPut
  cases hk : s.pending[k]? with
  | none => rfl
  | some e =>
    have h1 := (Heapq.push_perm Processor.entryLt s.queue e).countP_eq (isId id)
    rw [List.countP_cons] at h1
    have h2 : (s.pending.eraseIdx k).countP (isId id) + (if isId id e then 1 else 0) = s.pending.countP (isId id) := by
      obtain ⟨hlt, he⟩ := List.getElem?_eq_some_iff.1 hk
      have := countP_eraseIdx (isId id) hk
      exact this
    simp only [load, h1]
    omega

theorem load_enqueue (c : Processor.Cfg) (s : Processor.Sys) (id : Nat) (prio : Option Processor.Prio) (created : Option Int) :
    let s' := Processor.enqueue c s id prio created
    (s'.pending = s.pending ∧ (∀ x, load s' x = load s x) ∧
      (s'.log = s.log ++ [.full id] ∨ s'.log = s.log ++ [.badPriority id] ∨ (s'.log = s.log ++ [.missing id] ∧ created = none))) ∨
    (s'.pending.length = s.pending.length + 1 ∧ s'.log = s.log ∧ ∀ x, load s' x = load s x + (if id = x then 1 else 0)) := by
  simp only
  have hadd : ∀ p : Int, ∀ x, load { s with pending := s.pending ++ [(p, id)] } x = load s x + (if id = x then 1 else 0) := by
    intro p x
    simp only [load, List.countP_append, List.countP_singleton, isId, beq_iff_eq]
    omega
  unfold Processor.enqueue
  split
  · exact Or.inl ⟨rfl, fun _ => rfl, Or.inl rfl⟩
  · cases prio with
    | some q =>
      cases q with
      | finite p => exact Or.inr ⟨by simp, rfl, hadd p⟩
      | nonFinite => exact Or.inl ⟨rfl, fun _ => rfl, Or.inr (Or.inl rfl)⟩
    | none =>
      cases created with
      | some p => exact Or.inr ⟨by simp, rfl, hadd p⟩
      | none => exact Or.inl ⟨rfl, fun _ => rfl, Or.inr (Or.inr ⟨rfl, rfl⟩)⟩

theorem load_cancel (c : Processor.Cfg) (s : Processor.Sys) (i id : Nat) : load (Processor.step c s (.cancel i)) id ≤ load s id := by
  simp only [Processor.step]
  split
  · exact Nat.le_refl _
  · next cl hi =>
    split
    · exact Nat.le_refl _
    · have := Processor.countP_set (holds id) { cl with pc := .failed } hi
      have e : holds id { cl with pc := .failed } = false := rfl
      rw [e] at this
      simp only [load, Processor.setCall]
      simp at this
      omega

theorem load_forgetAll (c : Processor.Cfg) (ids : List Nat) : ∀ (s : Processor.Sys) (id : Nat),
    load (forgetAll c s ids) id = load s id ∧ (forgetAll c s ids).queue = s.queue := by
  induction ids with
  | nil => intro s id; exact ⟨rfl, rfl⟩
  | cons x ids ih => intro s id; exact ih (Processor.step c s (.forget x)) id

/-! ### How often an id is listed -/

/-- Number of times an id is listed under the statuses altogether. -/
def total (f : EFlow γ) (id : Nat) : Nat := (Status.all.map (fun st => (listed f st).count id)).sum

theorem total_eq (f : EFlow γ) (id : Nat) : total f id =
    (listed f .pending).count id + ((listed f .processing).count id + ((listed f .completed).count id + ((listed f .failed).count id +
      ((listed f .cancelled).count id + ((listed f .skipped).count id + (listed f .aborted).count id))))) := by
  simp [total, Status.all]

theorem count_le_total (f : EFlow γ) (id : Nat) (st : Status) : (listed f st).count id ≤ total f id := by
  rw [total_eq]
  cases st <;> omega

theorem count_update {f f' : EFlow γ} {id : Nat} {st : Status}
    (h : ∀ s, listed f' s = (listed f s).erase id ++ (if s = st then [id] else [])) (s : Status) (x : Nat) :
    (listed f' s).count x = if x = id then (listed f s).count x - 1 + (if s = st then 1 else 0) else (listed f s).count x := by
  rw [h s, List.count_append, List.count_erase]
  by_cases hx : x = id
  · subst hx
    by_cases hs : s = st <;> simp [hs]
  · have hx' : id ≠ x := fun e => hx e.symm
    by_cases hs : s = st <;> simp [hs, hx, hx', List.count_singleton]

theorem total_update {f f' : EFlow γ} {id : Nat} {st : Status}
    (h : ∀ s, listed f' s = (listed f s).erase id ++ (if s = st then [id] else [])) (x : Nat) (h1 : total f id ≤ 1) :
    total f' x = if x = id then 1 else total f x := by
  by_cases hx : x = id
  · subst hx
    rw [total_eq] at h1
    rw [total_eq]
    simp only [count_update h, if_true]
    cases st <;> simp <;> omega
  · rw [total_eq, total_eq]
    simp only [count_update h, hx, if_false]

theorem total_erase {f f' : EFlow γ} {id : Nat} (h : ∀ s, listed f' s = (listed f s).erase id) (x : Nat) (h1 : total f id ≤ 1) :
    total f' x = if x = id then 0 else total f x := by
  rw [total_eq] at h1 ⊢
  simp only [h, List.count_erase]
  by_cases hx : x = id
  · subst hx; simp; omega
  · have hx' : id ≠ x := fun e => hx e.symm
    rw [total_eq]
    simp [hx, hx']

/-- Each stored event is listed under exactly one status, and nothing else is listed. -/
def Part (f : EFlow γ) : Prop := ∀ id, total f id = if id ∈ f.items.order then 1 else 0

theorem Part.le {f : EFlow γ} (h : Part f) (id : Nat) : total f id ≤ 1 := by
  rw [h id]; split <;> omega

theorem Part.mem {f : EFlow γ} (h : Part f) {id : Nat} {st : Status} (hm : id ∈ listed f st) : id ∈ f.items.order := by
  have h1 := h id
  have h2 := count_le_total f id st
  have h3 := List.count_pos_iff.2 hm
  split at h1
  · assumption
  · omega

theorem Part.update {pid : Status → Nat} {f : EFlow γ} (h : EGood pid f) (hp : Part f) {id : Nat} (hid : id ∈ f.items.order) (st : Status) :
    ∃ f', updateProgression f id st = (f', .ok ()) ∧ EGood pid f' ∧ f'.items = f.items ∧ Part f' ∧
      (∀ s, listed f' s = (listed f s).erase id ++ (if s = st then [id] else [])) := by
  obtain ⟨f', h1, h2, h3, h4⟩ := update_spec h id st
  refine ⟨f', h1, h2, h3, ?_, h4⟩
  intro x
  rw [total_update h4 x (hp.le id), h3]
  by_cases hx : x = id
  · subst hx; rw [if_pos rfl, if_pos hid]
  · rw [if_neg hx]; exact hp x

/-! ### Clean-up -/

theorem lookupAll_ok {items : Pile Nat γ Int} (h : Pile.Inv items) (us : List Nat) (hu : ∀ u ∈ us, u ∈ items.order) :
    lookupAll items us = .ok (us.filterMap items.items.get?) ∧ (us.filterMap items.items.get?).map Item.id = us := by
  have hdef : ∀ u ∈ us, (items.items.get? u).isSome = true := fun u hm => Pile.isSome_of_order h u (hu u hm)
  refine ⟨?_, Pile.filterMap_ids h.ids hdef⟩
  clear hu
  induction us with
  | nil => rfl
  | cons u us ih =>
    obtain ⟨x, hx⟩ := Option.isSome_iff_exists.1 (hdef u (by simp))
    simp only [lookupAll, hx, List.filterMap_cons]
    rw [ih (fun v hv => hdef v (by simp [hv]))]

theorem getEvents_ok {pid : Status → Nat} {f : EFlow γ} (h : EGood pid f) (hp : Part f) (st : Status) :
    getEvents f st = .ok ((listed f st).filterMap f.items.items.get?) ∧
      ((listed f st).filterMap f.items.items.get?).map Item.id = listed f st := by
  have := lookupAll_ok h.good.piles.items (listed f st) (fun u hu => hp.mem hu)
  refine ⟨?_, this.2⟩
  simp only [getEvents, getProg_ok h st, progOf]
  exact this.1

/-- What removing a list of distinct stored events does. -/
theorem removeEvents_ok {pid : Status → Nat} (evs : List (Ev γ)) :
    ∀ (f : EFlow γ), EGood pid f → Part f → (evs.map Item.id).Nodup → (∀ ev ∈ evs, ev.id ∈ f.items.order) →
      ∃ f', removeEvents f evs = (f', evs.map Item.id, none) ∧ EGood pid f' ∧ Part f' ∧
        f'.items.order = f.items.order.filter (fun u => !(evs.map Item.id).contains u) ∧
        (∀ u, u ∉ evs.map Item.id → f'.items.items.get? u = f.items.items.get? u) ∧
        ∀ s, listed f' s = (listed f s).filter (fun u => !(evs.map Item.id).contains u) := by
  induction evs with
  | nil =>
    intro f h hp _ _
    exact ⟨f, rfl, h, hp, (List.filter_eq_self.2 (by simp)).symm, fun _ _ => rfl, fun s => (List.filter_eq_self.2 (by simp)).symm⟩
  | cons ev evs ih =>
    intro f h hp hnd hm
    rw [List.map_cons, List.nodup_cons] at hnd
    have hin := hm ev (by simp)
    obtain ⟨x, hx⟩ := Option.isSome_iff_exists.1 (Pile.isSome_of_order h.good.piles.items ev.id hin)
    obtain ⟨f1, h1, h2, h3, h4⟩ := remove_spec h hx
    have hnd0 := h.good.piles.items.nodup
    have horder : f1.items.order = f.items.order.erase ev.id := by rw [h3]
    have hp1 : Part f1 := by
      intro y
      rw [total_erase h4 y (hp.le _), horder]
      by_cases hy : y = ev.id
      · subst hy
        rw [if_pos rfl, if_neg (by rw [hnd0.mem_erase_iff]; simp)]
      · rw [if_neg hy, hp y]
        simp [hnd0.mem_erase_iff, hy]
    obtain ⟨f', g1, g2, g3, g4, g5, g6⟩ := ih f1 h2 hp1 hnd.2 (by
      intro e he
      rw [horder, hnd0.mem_erase_iff]
      refine ⟨?_, hm e (by simp [he])⟩
      intro hee
      apply hnd.1
      rw [← hee]
      exact List.mem_map_of_mem he)
    have hnodup : ∀ s, (listed f s).Nodup := by
      intro s
      rw [List.nodup_iff_count]
      intro a
      have := count_le_total f a s
      have := hp.le a
      omega
    refine ⟨f', ?_, g2, g3, ?_, ?_, ?_⟩
    · simp only [removeEvents, h1, g1, List.map_cons]
    · rw [g4, horder, hnd0.erase_eq_filter, List.filter_filter]
      apply List.filter_congr
      intro u _
      simp only [List.map_cons, List.contains_cons]
      cases (evs.map Item.id).contains u <;> simp [bne]
    · intro u hu
      rw [List.map_cons, List.mem_cons, not_or] at hu
      rw [g5 u hu.2, h3]
      show (f.items.items.del ev.id).get? u = _
      rw [Dict.get?_del h.good.piles.items.wf, if_neg (fun e => hu.1 e.symm)]
    · intro s
      rw [g6, h4, (hnodup s).erase_eq_filter, List.filter_filter]
      apply List.filter_congr
      intro u _
      simp only [List.map_cons, List.contains_cons]
      cases (evs.map Item.id).contains u <;> simp [bne]

theorem Part.nodup {f : EFlow γ} (hp : Part f) (s : Status) : (listed f s).Nodup := by
  rw [List.nodup_iff_count]
  intro a
  have := count_le_total f a s
  have := hp.le a
  omega

/-- An id is listed under one status only. -/
theorem Part.unique {f : EFlow γ} (hp : Part f) {s t : Status} {id : Nat} (h1 : id ∈ listed f s) (h2 : id ∈ listed f t) : s = t := by
  have a := List.count_pos_iff.2 h1
  have b := List.count_pos_iff.2 h2
  have c := hp.le id
  rw [total_eq] at c
  cases s <;> cases t <;> first | rfl | omega

/-- The result of a clean-up of the statuses `sts`. -/
structure Cleaned (f f' : EFlow γ) (ids : List Nat) (sts : List Status) : Prop where
  nodup : ids.Nodup
  removed : ∀ u, u ∈ ids ↔ ∃ st ∈ sts, u ∈ listed f st
  order : f'.items.order = f.items.order.filter (fun u => decide (u ∉ ids))
  same : ∀ u, u ∉ ids → f'.items.items.get? u = f.items.items.get? u
  gone : ∀ u ∈ ids, f'.items.items.get? u = none
  lists : ∀ s, listed f' s = if s ∈ sts then [] else listed f s

theorem cleanup_ok {pid : Status → Nat} (sts : List Status) :
    ∀ (f : EFlow γ), EGood pid f → Part f →
      ∃ f' ids, cleanup f sts = (f', ids, none) ∧ EGood pid f' ∧ Part f' ∧ Cleaned f f' ids sts := by
  induction sts with
  | nil =>
    intro f h hp
    refine ⟨f, [], rfl, h, hp, List.nodup_nil, by simp, (List.filter_eq_self.2 (by simp)).symm, fun _ _ => rfl, by simp, by simp⟩
  | cons st sts ih =>
    intro f h hp
    obtain ⟨e1, e2⟩ := getEvents_ok h hp st
    obtain ⟨f1, h1, h2, h3, h4, h5, h6⟩ := removeEvents_ok ((listed f st).filterMap f.items.items.get?) f h hp
      (by rw [e2]; exact hp.nodup st) (by
        intro ev hev
        apply hp.mem (st := st)
        rw [← e2]; exact List.mem_map_of_mem hev)
    rw [e2] at h1 h4 h5 h6
    obtain ⟨f2, ids, g1, g2, g3, g4⟩ := ih f1 h2 h3
    have hl1 : ∀ s, listed f1 s = if s = st then [] else listed f s := by
      intro s
      rw [h6]
      by_cases hs : s = st
      · subst hs
        rw [if_pos rfl, List.filter_eq_nil_iff]
        intro a ha
        simp [ha]
      · rw [if_neg hs, List.filter_eq_self]
        intro a ha
        have : a ∉ listed f st := fun hm => hs (hp.unique ha hm)
        simp [this]
    have hsub : ∀ u, u ∈ ids ↔ ∃ s ∈ sts, s ≠ st ∧ u ∈ listed f s := by
      intro u
      rw [g4.removed]
      constructor
      · rintro ⟨s, hs, hu⟩
        rw [hl1] at hu
        split at hu
        · cases hu
        · next hne => exact ⟨s, hs, hne, hu⟩
      · rintro ⟨s, hs, hne, hu⟩
        exact ⟨s, hs, by rw [hl1, if_neg hne]; exact hu⟩
    refine ⟨f2, listed f st ++ ids, ?_, g2, g3, ?_, ?_, ?_, ?_, ?_, ?_⟩
    · simp only [cleanup, e1, h1, g1]
    · rw [List.nodup_append]
      refine ⟨hp.nodup st, g4.nodup, ?_⟩
      rintro a ha b hb rfl
      obtain ⟨s, _, hne, hs⟩ := (hsub a).1 hb
      exact hne (hp.unique hs ha)
    · intro u
      rw [List.mem_append, hsub]
      constructor
      · rintro (hu | ⟨s, hs, _, hu⟩)
        · exact ⟨st, by simp, hu⟩
        · exact ⟨s, by simp [hs], hu⟩
      · rintro ⟨s, hs, hu⟩
        by_cases e : s = st
        · subst e; exact Or.inl hu
        · rw [List.mem_cons] at hs
          rcases hs with hs | hs
          · exact absurd hs e
          · exact Or.inr ⟨s, hs, e, hu⟩
    · rw [g4.order, h4, List.filter_filter]
      apply List.filter_congr
      intro u _
      simp only [List.mem_append, not_or]
      by_cases a : u ∈ listed f st <;> by_cases b : u ∈ ids <;> simp [a, b]
    · intro u hu
      rw [List.mem_append, not_or] at hu
      rw [g4.same u hu.2, h5 u hu.1]
    · intro u hu
      have hnm : u ∉ f2.items.order := by
        rw [g4.order, h4]
        rw [List.mem_append] at hu
        rcases hu with hu | hu <;> simp [hu]
      rw [g2.good.piles.items.mem_iff, ← Dict.get?_eq_none_iff] at hnm
      exact hnm
    · intro s
      rw [g4.lists, hl1]
      by_cases e : s = st <;> by_cases m : s ∈ sts <;> simp [e, m]

/-! ### The invariant of a run -/

/-- Queued or in hand. -/
def waiting (s : Sys γ) (id : Nat) : Nat :=
  (match s.proc with
    | none => 0
    | some p => load p id) + s.backfill.count id

def isRun (id : Nat) (r : Nat × Nat) : Bool := r.2 == id

structure J (pid : Status → Nat) (s : Sys γ) : Prop where
  eg : EGood pid s.flow
  part : Part s.flow
  heap : ∀ p, s.proc = some p → ∃ slot, Processor.Sim p slot
  pend : ∀ id, waiting s id ≤ (listed s.flow .pending).count id
  runs : ∀ id, s.runs.countP (isRun id) ≤ (listed s.flow .processing).count id

/-- The clean-up requests leave waiting and executing events alone. -/
def Gentle : Act γ → Prop
  | .cleanup sts => Status.pending ∉ sts ∧ Status.processing ∉ sts
  | _ => True

/-- A clean-up may ask for waiting or executing events, but no such event is still queued, held by a `process()` call or executing. -/
def GentleAt (s : Sys γ) : Act γ → Prop
  | .cleanup sts => ∀ st ∈ sts, st = .pending ∨ st = .processing → ∀ id ∈ listed s.flow st,
      waiting s id = 0 ∧ s.runs.countP (isRun id) = 0
  | _ => True

/-- The same along a schedule. -/
def GentleRun (sub : γ → γ → Bool) (c : Processor.Cfg) : Sys γ → List (Act γ) → Prop
  | _, [] => True
  | s, a :: as => GentleAt s a ∧ GentleRun sub c (step sub c s a) as

theorem Gentle.at {a : Act γ} (h : Gentle a) (s : Sys γ) : GentleAt s a := by
  cases a with
  | cleanup sts =>
    intro st hst hor
    rcases hor with rfl | rfl
    · exact absurd hst h.1
    · exact absurd hst h.2
  | _ => trivial

theorem J.noFlow {pid : Status → Nat} {s s' : Sys γ} (h : J pid s) (hf : s'.flow = s.flow)
    (hs : ∀ p, s'.proc = some p → ∃ slot, Processor.Sim p slot) (hw : ∀ id, waiting s' id ≤ waiting s id)
    (hr : ∀ id, s'.runs.countP (isRun id) ≤ s.runs.countP (isRun id)) : J pid s' := by
  refine ⟨by rw [hf]; exact h.eg, by rw [hf]; exact h.part, hs, ?_, ?_⟩
  · intro id; rw [hf]; exact Nat.le_trans (hw id) (h.pend id)
  · intro id; rw [hf]; exact Nat.le_trans (hr id) (h.runs id)

/-- A step of the processor alone. -/
theorem J.proc {pid : Status → Nat} {s : Sys γ} (h : J pid s) (c : Processor.Cfg) (a : Processor.Act)
    (ha : ∀ p, s.proc = some p → ∀ id, load (Processor.step c p a) id ≤ load p id) :
    J pid { s with proc := s.proc.map (fun p => Processor.step c p a) } := by
  refine h.noFlow rfl ?_ ?_ (fun _ => Nat.le_refl _)
  · intro p hp
    simp only at hp
    cases hs : s.proc with
    | none => rw [hs] at hp; cases hp
    | some q =>
      rw [hs] at hp; cases hp
      obtain ⟨slot, hsim⟩ := h.heap q hs
      exact hsim.step a
  · intro id
    unfold waiting
    cases hs : s.proc with
    | none => exact Nat.le_refl _
    | some q =>
      have := ha q hs id
      simp only [Option.map_some]
      omega

theorem enqueue_sim {c : Processor.Cfg} {p : Processor.Sys} {slot : Nat → Processor.Slot} (h : Processor.Sim p slot) (f : EFlow γ) (id : Nat)
    (prio : Option Processor.Prio) : ∃ slot', Processor.Sim (enqueue c f p id prio) slot' := h.step _

theorem enqueue_load (c : Processor.Cfg) (f : EFlow γ) (p : Processor.Sys) (id : Nat) (prio : Option Processor.Prio) :
    (rejected p (enqueue c f p id prio) = true ∧ (∀ x, load (enqueue c f p id prio) x = load p x) ∧
      ((enqueue c f p id prio).log = p.log ++ [.full id] ∨ (enqueue c f p id prio).log = p.log ++ [.badPriority id] ∨
        (enqueue c f p id prio).log = p.log ++ [.missing id])) ∨
    (rejected p (enqueue c f p id prio) = false ∧ (enqueue c f p id prio).log = p.log ∧
      ∀ x, load (enqueue c f p id prio) x = load p x + (if id = x then 1 else 0)) := by
  unfold enqueue
  simp only [Processor.step]
  rcases load_enqueue c p id prio ((f.items.items.get? id).map (fun x => x.data)) with ⟨hp, hl, h3⟩ | ⟨hp, h2, hl⟩
  · refine Or.inl ⟨by simp [rejected, hp], hl, ?_⟩
    rcases h3 with h | h | ⟨h, _⟩
    · exact Or.inl h
    · exact Or.inr (Or.inl h)
    · exact Or.inr (Or.inr h)
  · exact Or.inr ⟨by simp [rejected, hp], h2, hl⟩

theorem waiting_pos {p : Processor.Sys} {i : Nat} {cl : Processor.Call} (hi : p.calls[i]? = some cl) {x : Nat} (hx : holds x cl = true) :
    1 ≤ load p x := by
  have : 0 < p.calls.countP (holds x) := by
    rw [List.countP_pos_iff]
    exact ⟨cl, List.mem_of_getElem? hi, hx⟩
  unfold load; omega

theorem fileOf_holds {cl : Processor.Call} {x : Nat} {st : Status} (h : fileOf cl.pc = some (x, st)) :
    holds x cl = true ∧ filed cl.pc x = true ∧ (∀ y, filed cl.pc y = true ↔ y = x) ∧
      ((st = .processing ∧ startOf cl.pc = some x) ∨ (st = .aborted ∧ startOf cl.pc = none)) := by
  cases hpc : cl.pc with
  | granted e =>
    rw [hpc] at h; cases h
    refine ⟨?_, ?_, ?_, Or.inl ⟨rfl, rfl⟩⟩
    · simp [holds, Processor.Call.held, hpc, isId]
    · simp [filed, fileOf]
    · intro y; simp only [filed, fileOf, beq_iff_eq]; exact ⟨Eq.symm, Eq.symm⟩
  | aborting e =>
    rw [hpc] at h; cases h
    refine ⟨?_, ?_, ?_, Or.inr ⟨rfl, rfl⟩⟩
    · simp [holds, Processor.Call.held, hpc, isId]
    · simp [filed, fileOf]
    · intro y; simp only [filed, fileOf, beq_iff_eq]; exact ⟨Eq.symm, Eq.symm⟩
  | _ => rw [hpc] at h; cases h

theorem J.goOn {pid : Status → Nat} {s : Sys γ} (h : J pid s) (c : Processor.Cfg) {p : Processor.Sys} (hp : s.proc = some p) {i : Nat}
    {cl : Processor.Call} (hi : p.calls[i]? = some cl) (perm : Processor.Perm) : J pid (goOn c s p i cl perm) := by
  obtain ⟨slot, hsim⟩ := h.heap p hp
  unfold Executor.goOn
  cases hfo : fileOf cl.pc with
  | none =>
    simp only
    refine h.noFlow rfl ?_ ?_ (fun _ => Nat.le_refl _)
    · intro q hq; cases hq; exact hsim.step _
    · intro id
      have hl := (load_advance c p hsim.heap hi (found s.flow p) perm id).1
      have e1 : filed cl.pc id = false := by simp only [filed, hfo]
      simp only [waiting, hp, Processor.step, hi]
      rw [e1] at hl
      simp at hl
      omega
  | some r =>
    obtain ⟨x, st⟩ := r
    obtain ⟨hh, hf, hfi, hst⟩ := fileOf_holds hfo
    have hw : 1 ≤ waiting s x := by
      have := waiting_pos hi hh
      simp only [waiting, hp]; omega
    have hpc := h.pend x
    have hmem : x ∈ listed s.flow .pending := List.count_pos_iff.1 (by omega)
    have hx := h.part.mem hmem
    obtain ⟨f', h1, h2, h3, h4, h5⟩ := Part.update h.eg h.part hx st
    simp only [h1]
    have hone := h.part.le x
    rw [total_eq] at hone
    have hrun := h.runs x
    have hcp : ∀ t y, (listed f' t).count y = _ := fun t y => count_update h5 t y
    refine ⟨h2, h4, ?_, ?_, ?_⟩
    · intro q hq; cases hq; exact hsim.step _
    · intro id
      have hl := (load_advance c p hsim.heap hi true perm id).1
      have hpi := h.pend id
      simp only [waiting, hp, Processor.step, hi] at hpi hpc ⊢
      rw [hcp]
      by_cases e : id = x
      · subst e
        rw [hf] at hl
        simp only [if_true] at hl ⊢
        omega
      · rw [if_neg e]; omega
    · intro id
      rw [hcp]
      have hri := h.runs id
      simp only [List.countP_append]
      rcases hst with ⟨rfl, h6⟩ | ⟨rfl, h6⟩
      · simp only [h6, Option.map_some, Option.toList_some, List.countP_singleton, isRun]
        by_cases e : id = x
        · subst e; simp; omega
        · have e' : x ≠ id := fun h => e h.symm
          simp [e, e']; exact hri
      · simp only [h6, Option.map_none, Option.toList_none, List.countP_nil]
        by_cases e : id = x
        · subst e; simp; omega
        · simp [e]; exact hri

theorem J.step {pid : Status → Nat} {s : Sys γ} (h : J pid s) (sub : γ → γ → Bool) (c : Processor.Cfg) (a : Act γ) (hg : GentleAt s a) :
    J pid (step sub c s a) := by
  cases a with
  | append ev prio =>
    simp only [Executor.step]
    rcases addEvent_cases h.eg sub ev with ⟨e, he⟩ | ⟨hk, f', he, h1, h2, h3⟩
    · rw [he]; exact h
    · rw [he]
      simp only
      have hnew : ev.id ∉ s.flow.items.order := by rw [h.eg.good.piles.items.mem_iff]; exact hk
      have hc : ∀ t y, (listed f' t).count y = (listed s.flow t).count y + (if t = .pending ∧ ev.id = y then 1 else 0) := by
        intro t y
        rw [h3, List.count_append]
        by_cases e : t = .pending <;> by_cases e' : ev.id = y <;> simp [e, e', List.count_singleton]
      have hpart : Part f' := by
        intro y
        have := h.part y
        rw [total_eq] at this ⊢
        simp only [hc]
        rw [h2]
        by_cases e' : ev.id = y
        · subst e'
          rw [if_neg hnew] at this
          simp; omega
        · have e'' : y ≠ ev.id := fun h => e' h.symm
          simp [e', e'']
          exact this
      refine ⟨h1, hpart, ?_, ?_, ?_⟩
      · intro p hp
        simp only at hp
        cases hs : s.proc with
        | none => rw [hs] at hp; cases hp
        | some q =>
          rw [hs] at hp; cases hp
          obtain ⟨slot, hsim⟩ := h.heap q hs
          exact enqueue_sim hsim _ _ _
      · intro id
        have hpi := h.pend id
        rw [hc]
        unfold waiting at hpi ⊢
        cases hs : s.proc with
        | none => rw [hs] at hpi; simp only [Option.map_none] at hpi ⊢; omega
        | some q =>
          rw [hs] at hpi
          simp only [Option.map_some] at hpi ⊢
          rcases enqueue_load c f' q ev.id prio with ⟨_, hl, _⟩ | ⟨_, _, hl⟩
          · rw [hl]; omega
          · rw [hl]; simp only [true_and]; omega
      · intro id
        rw [hc]
        have := h.runs id
        simp; exact this
  | start =>
    simp only [Executor.step]
    cases hs : s.proc with
    | some q => exact h
    | none =>
      obtain ⟨e1, e2⟩ := getEvents_ok h.eg h.part .pending
      simp only [e1, e2]
      refine ⟨h.eg, h.part, ?_, ?_, h.runs⟩
      · intro p hp; cases hp; exact ⟨_, Processor.sim_init c⟩
      · intro id
        simp [waiting, load, Processor.init]
  | fill =>
    simp only [Executor.step]
    cases hs : s.proc with
    | none => exact h
    | some q =>
      cases hb : s.backfill with
      | nil => exact h
      | cons x xs =>
        simp only
        obtain ⟨slot, hsim⟩ := h.heap q hs
        refine h.noFlow rfl ?_ ?_ (fun _ => Nat.le_refl _)
        · intro p hp; cases hp; exact enqueue_sim hsim _ _ _
        · intro id
          simp only [waiting, hs, hb, List.count_cons, beq_iff_eq]
          rcases enqueue_load c s.flow q x none with ⟨hp, hl, _⟩ | ⟨hp, _, hl⟩
          · rw [if_pos hp, hl]; simp
          · rw [if_neg (by rw [hp]; simp), hl]; omega
  | enqPut k => exact h.proc c _ (fun p _ id => Nat.le_of_eq (load_enqPut p k id))
  | forward =>
    refine h.proc c _ (fun p _ id => ?_)
    simp [Processor.step, load, List.countP_append, holds, Processor.Call.held]
  | go i perm =>
    simp only [Executor.step]
    cases hs : s.proc with
    | none => exact h
    | some p =>
      simp only
      cases hi : p.calls[i]? with
      | none => exact h
      | some cl =>
        simp only
        split
        · exact h
        · exact h.goOn c hs hi perm
  | cancel i => exact h.proc c _ (fun p _ id => load_cancel c p i id)
  | finish k st =>
    simp only [Executor.step]
    cases hk : s.runs[k]? with
    | none => exact h
    | some r =>
      simp only
      have hcr := fun id => countP_eraseIdx (isRun id) hk
      have hr : 1 ≤ s.runs.countP (isRun r.2) := by
        have := hcr r.2
        have e : isRun r.2 r = true := by simp [isRun]
        rw [e] at this; simp at this; omega
      have hmem : r.2 ∈ listed s.flow .processing := List.count_pos_iff.1 (by have := h.runs r.2; omega)
      obtain ⟨f', h1, h2, h3, h4, h5⟩ := Part.update h.eg h.part (h.part.mem hmem) st
      rw [h1]
      have hone := h.part.le r.2
      rw [total_eq] at hone
      refine ⟨h2, h4, h.heap, ?_, ?_⟩
      · intro id
        have hpi := h.pend id
        show waiting s id ≤ _
        rw [count_update h5]
        by_cases e : id = r.2
        · subst e
          have := h.runs r.2
          rw [if_pos rfl]; omega
        · rw [if_neg e]; exact hpi
      · intro id
        rw [count_update h5]
        have hri := h.runs id
        have := hcr id
        simp only at this ⊢
        by_cases e : id = r.2
        · subst e
          have e : isRun r.2 r = true := by simp [isRun]
          rw [e] at this
          simp at this ⊢
          omega
        · rw [if_neg e]; omega
  | vanish k =>
    refine h.noFlow rfl h.heap (fun _ => Nat.le_refl _) ?_
    intro id
    exact List.Sublist.countP_le (List.eraseIdx_sublist _ _)
  | stop => exact h.proc c _ (fun p _ id => Nat.le_refl _)
  | cleanup sts =>
    simp only [Executor.step]
    obtain ⟨f', ids, h1, h2, h3, h4⟩ := cleanup_ok sts s.flow h.eg h.part
    rw [h1]
    simp only
    have hl1 : ∀ id, waiting s id ≤ (listed f' .pending).count id := by
      intro id
      rw [h4.lists]
      have hle := h.pend id
      split
      · next hm =>
        by_cases hid : id ∈ listed s.flow .pending
        · rw [(hg _ hm (Or.inl rfl) id hid).1]; exact Nat.zero_le _
        · rw [List.count_eq_zero_of_not_mem hid] at hle; exact Nat.le_trans hle (Nat.zero_le _)
      · exact hle
    have hl2 : ∀ id, s.runs.countP (isRun id) ≤ (listed f' .processing).count id := by
      intro id
      rw [h4.lists]
      have hle := h.runs id
      split
      · next hm =>
        by_cases hid : id ∈ listed s.flow .processing
        · rw [(hg _ hm (Or.inr rfl) id hid).2]; exact Nat.zero_le _
        · rw [List.count_eq_zero_of_not_mem hid] at hle; exact Nat.le_trans hle (Nat.zero_le _)
      · exact hle
    refine ⟨h2, h3, ?_, ?_, ?_⟩
    · intro p hp
      simp only at hp
      cases hs : s.proc with
      | none => rw [hs] at hp; cases hp
      | some q =>
        rw [hs] at hp; cases hp
        obtain ⟨slot, hsim⟩ := h.heap q hs
        have key : ∀ (ids : List Nat) (q : Processor.Sys) (slot : Nat → Processor.Slot), Processor.Sim q slot →
            ∃ slot', Processor.Sim (forgetAll c q ids) slot' := by
          intro ids
          induction ids with
          | nil => intro q slot h; exact ⟨slot, h⟩
          | cons x xs ih =>
            intro q slot h
            obtain ⟨slot', h'⟩ := h.step (c := c) (.forget x)
            exact ih _ slot' h'
        exact key ids q slot hsim
    · intro id
      have := hl1 id
      show _ ≤ (listed f' .pending).count id
      unfold waiting at this ⊢
      cases hs : s.proc with
      | none => rw [hs] at this; exact this
      | some q =>
        rw [hs] at this
        simp only [Option.map_some, (load_forgetAll c ids q id).1]
        exact this
    · intro id
      exact hl2 id

theorem J.run' {pid : Status → Nat} (sub : γ → γ → Bool) (c : Processor.Cfg) (as : List (Act γ)) {s : Sys γ} (h : J pid s)
    (hg : GentleRun sub c s as) : J pid (run sub c s as) := by
  induction as generalizing s with
  | nil => exact h
  | cons a as ih => exact ih (h.step sub c a hg.1) hg.2

theorem gentleRun_of {sub : γ → γ → Bool} {c : Processor.Cfg} (as : List (Act γ)) (hg : ∀ a ∈ as, Gentle a) (s : Sys γ) :
    GentleRun sub c s as := by
  induction as generalizing s with
  | nil => trivial
  | cons a as ih => exact ⟨(hg a (by simp)).at s, ih (fun b hb => hg b (by simp [hb])) _⟩

theorem J.run {pid : Status → Nat} (sub : γ → γ → Bool) (c : Processor.Cfg) (as : List (Act γ)) {s : Sys γ} (h : J pid s)
    (hg : ∀ a ∈ as, Gentle a) : J pid (run sub c s as) := h.run' sub c as (gentleRun_of as hg s)

theorem j_init {pid : Status → Nat} (inj : ∀ a b, pid a = pid b → a = b) (cls : List γ) (strict : Bool) :
    J pid (init pid cls strict) := by
  have key : ∀ f : EFlow γ, EGood pid f → f.items.order = [] → (∀ st, listed f st = []) → J pid ({ flow := f } : Sys γ) := by
    intro f h1 h2 h3
    refine ⟨h1, ?_, (by intro p hp; cases hp), fun id => Nat.zero_le _, fun id => Nat.zero_le _⟩
    intro id
    rw [total_eq]
    simp [h3, h2]
  obtain ⟨h1, h2, h3⟩ := init_good (γ := γ) inj cls strict
  unfold init
  exact key _ h1 (by rw [h2]) h3

/-! ### C30: each event under exactly one status -/

/-- Every status list exists and its events can be fetched, the lists together are the stored events, each once; each stored event is under exactly one status;
`status_counts` adds up. -/
def Consistent (f : EFlow γ) : Prop :=
  (∀ st, ∃ evs, getEvents f st = .ok evs ∧ evs.map Item.id = listed f st ∧ ∀ ev ∈ evs, f.items.items.get? ev.id = some ev) ∧
  (Status.all.flatMap (listed f)).Perm f.items.order ∧
  (∀ id ∈ f.items.order, ∃ st, id ∈ listed f st ∧ (listed f st).count id = 1 ∧ ∀ st', id ∈ listed f st' → st' = st) ∧
  (∃ l, statusCounts f = .ok l ∧ (l.map Prod.snd).sum = f.items.order.length ∧
    l = Status.all.map (fun st => (some (value st), (listed f st).length)))

theorem consistent_of {pid : Status → Nat} {f : EFlow γ} (hE : EGood pid f) (hP : Part f) : Consistent f := by
  have hperm : (Status.all.flatMap (listed f)).Perm f.items.order := by
    rw [List.perm_iff_count]
    intro id
    rw [List.count_flatMap]
    show total f id = _
    rw [hP id, hE.good.piles.items.nodup.count]
  refine ⟨?_, hperm, ?_, ?_⟩
  · intro st
    obtain ⟨e1, e2⟩ := getEvents_ok hE hP st
    refine ⟨_, e1, e2, ?_⟩
    intro ev hev
    rw [List.mem_filterMap] at hev
    obtain ⟨u, hu, hx⟩ := hev
    rw [hE.good.piles.items.ids u ev hx]; exact hx
  · intro id hid
    have hm := hperm.mem_iff.2 hid
    rw [List.mem_flatMap] at hm
    obtain ⟨st, _, hst⟩ := hm
    exact ⟨st, hst, (hP.nodup st).count.trans (if_pos hst), fun st' h' => hP.unique h' hst⟩
  · have hab : Pile.abs f.progs = Status.all.map (fun st => progOf pid st (listed f st)) := by
      unfold Pile.abs
      rw [hE.order, List.filterMap_map]
      have : ∀ l : List Status, l.filterMap (f.progs.items.get? ∘ pid) = l.map (fun st => progOf pid st (listed f st)) := by
        intro l
        induction l with
        | nil => rfl
        | cons a l ih => simp only [List.filterMap_cons, Function.comp, at_listed hE a, List.map_cons]; rw [← ih]; try rfl
      exact this _
    have hcounts : statusCounts f = .ok (Status.all.map (fun st => (some (value st), (listed f st).length))) := by
      simp only [statusCounts, Pile.iter_eq hE.good.piles.progs, hab, List.map_map]
      rfl
    refine ⟨_, hcounts, ?_, rfl⟩
    rw [← hperm.length_eq, List.length_flatMap, List.map_map]
    rfl

/-- After any history of executor operations, in any interleaving with any number of `process()` calls, cancellations, failures, and with clean-ups of finished
statuses, the status lists are consistent with the stored events. -/
theorem C30_exactly_one {pid : Status → Nat} (inj : ∀ a b, pid a = pid b → a = b) (cls : List γ) (strict : Bool)
    (sub : γ → γ → Bool) (c : Processor.Cfg) (as : List (Act γ)) (hg : ∀ a ∈ as, Gentle a) :
    Consistent (run sub c (init pid cls strict) as).flow :=
  consistent_of ((j_init inj cls strict).run sub c as hg).eg ((j_init inj cls strict).run sub c as hg).part

/-- C93 asks the same for clean-ups of any status.  Proved: it holds when, at each clean-up of waiting or executing events, none of these is still queued,
held by a `process()` call or executing.  Missing: clean-ups that remove such events (`C93_cleanup_violation`). -/
theorem C93_any_cleanup_partial {pid : Status → Nat} (inj : ∀ a b, pid a = pid b → a = b) (cls : List γ) (strict : Bool)
    (sub : γ → γ → Bool) (c : Processor.Cfg) (as : List (Act γ)) (hg : GentleRun sub c (init pid cls strict) as) :
    Consistent (run sub c (init pid cls strict) as).flow :=
  consistent_of ((j_init inj cls strict).run' sub c as hg).eg ((j_init inj cls strict).run' sub c as hg).part

def pid0 (st : Status) : Nat :=
  match st with
  | .pending => 100
  | .processing => 101
  | .completed => 102
  | .failed => 103
  | .cancelled => 104
  | .skipped => 105
  | .aborted => 106

def cfg0 : Processor.Cfg := { queueCapacity := 2, maxQueue := 3, maxDenial := 5 }

def ev0 (id : Nat) (t : Int) : Ev Unit := { id := id, cls := (), data := t }

def demo : List (Act Unit) :=
  [.append (ev0 1 10) none, .start, .fill, .append (ev0 2 5) none, .enqPut 0, .enqPut 0, .forward, .go 0 .grant, .go 0 .grant, .go 0 .grant,
    .go 0 .grant, .finish 0 .completed, .go 0 .grant, .go 0 .grant, .go 0 .grant, .go 0 .grant]

/-- Non-vacuity: two events; one has completed, the other is executing. -/
example :
    let f := (run (fun _ _ => true) cfg0 (init pid0 [()] false) demo).flow
    (∀ a ∈ demo, Gentle a) ∧ listed f .completed = [2] ∧ listed f .processing = [1] ∧ listed f .pending = [] ∧
    f.items.order = [1, 2] := by
  refine ⟨?_, by decide, by decide, by decide, by decide⟩
  intro a ha
  simp only [demo, List.mem_cons, List.not_mem_nil, or_false] at ha
  rcases ha with rfl | rfl | rfl | rfl | rfl | rfl | rfl | rfl | rfl | rfl | rfl | rfl | rfl | rfl | rfl | rfl <;> trivial

/-- `cleanup_events([PROCESSING])` while an event runs: when the event ends it is listed as completed although it is not stored, and
asking for the completed events raises NotFoundError. -/
theorem C93_cleanup_violation :
    let s := run (fun _ _ => true) cfg0 (init pid0 [()] false)
      [.append (ev0 1 10) none, .start, .fill, .enqPut 0, .forward, .go 0 .grant, .go 0 .grant, .go 0 .grant, .go 0 .grant,
        .cleanup [.processing], .finish 0 .completed]
    listed s.flow .completed = [1] ∧ s.flow.items.order = [] ∧ getEvents s.flow .completed = .error .notFound := by
  refine ⟨by decide, by decide, by decide⟩

/-! ### C31: clean-up -/

theorem cleanup_effect {pid : Status → Nat} {f : EFlow γ} (hE : EGood pid f) (hP : Part f) (sts : List Status) :
    ∃ f' ids, cleanup f sts = (f', ids, none) ∧
      f'.items.order = f.items.order.filter (fun u => decide (¬ ∃ st ∈ sts, u ∈ listed f st)) ∧
      f'.items.order.length + ids.length = f.items.order.length ∧
      (∀ u ∈ f'.items.order, f'.items.items.get? u = f.items.items.get? u) ∧
      (∀ u, u ∉ f'.items.order → f'.items.items.get? u = none) ∧
      (∀ st, listed f' st = if st ∈ sts then [] else listed f st) := by
  obtain ⟨f', ids, h1, h2, h3, h4⟩ := cleanup_ok sts f hE hP
  have hord : f'.items.order = f.items.order.filter (fun u => decide (¬ ∃ st ∈ sts, u ∈ listed f st)) := by
    rw [h4.order]
    apply List.filter_congr
    intro u _
    simp only [h4.removed]
  refine ⟨f', ids, h1, hord, ?_, ?_, ?_, h4.lists⟩
  · have e1 : f.items.order.filter (fun u => decide (u ∈ ids)) |>.Perm ids := by
      rw [List.perm_ext_iff_of_nodup (hE.good.piles.items.nodup.filter _) h4.nodup]
      intro u
      simp only [List.mem_filter, decide_eq_true_eq]
      constructor
      · exact fun h => h.2
      · intro hu
        obtain ⟨st, _, hst⟩ := (h4.removed u).1 hu
        exact ⟨hP.mem hst, hu⟩
    have e2 := (List.filter_append_perm (fun u => decide (u ∈ ids)) f.items.order).length_eq
    rw [List.length_append] at e2
    have e3 : (fun u => decide (u ∉ ids)) = (fun u => !decide (u ∈ ids)) := by
      funext u; by_cases hu : u ∈ ids <;> simp [hu]
    rw [h4.order, ← e1.length_eq, e3]
    omega
  · intro u hu
    apply h4.same
    intro hm
    rw [h4.order] at hu
    simp [hm] at hu
  · intro u hu
    rw [h2.good.piles.items.mem_iff, ← Dict.get?_eq_none_iff] at hu
    exact hu

/-- In every state reached by a history as in C93's partial theorem, and for every list of statuses (waiting and executing ones included, repetitions allowed): the clean-up does
not raise, removes precisely the events listed under those statuses, returns their number, and leaves the other events and lists, and
their order, as they were. -/
theorem C31_cleanup {pid : Status → Nat} (inj : ∀ a b, pid a = pid b → a = b) (cls : List γ) (strict : Bool)
    (sub : γ → γ → Bool) (c : Processor.Cfg) (as : List (Act γ)) (hg : GentleRun sub c (init pid cls strict) as) (sts : List Status) :
    let f := (run sub c (init pid cls strict) as).flow
    ∃ f' ids, cleanup f sts = (f', ids, none) ∧
      f'.items.order = f.items.order.filter (fun u => decide (¬ ∃ st ∈ sts, u ∈ listed f st)) ∧
      f'.items.order.length + ids.length = f.items.order.length ∧
      (∀ u ∈ f'.items.order, f'.items.items.get? u = f.items.items.get? u) ∧
      (∀ u, u ∉ f'.items.order → f'.items.items.get? u = none) ∧
      (∀ st, listed f' st = if st ∈ sts then [] else listed f st) := by
  intro f
  have h : J pid (run sub c (init pid cls strict) as) := (j_init inj cls strict).run' sub c as hg
  exact cleanup_effect h.eg h.part sts

/-- Non-vacuity: with a repeated status, one of two events goes. -/
example :
    let f := (run (fun _ _ => true) cfg0 (init pid0 [()] false) demo).flow
    let r := cleanup f [.completed, .failed, .completed]
    r.1.items.order = [1] ∧ r.2.1 = [2] ∧ listed r.1 .processing = [1] := by
  refine ⟨by decide, by decide, by decide⟩

/-- The default list. -/
example : defaultStatuses = [.completed, .failed, .aborted] := rfl

/-- Non-vacuity of C93's hypothesis: a pending event is cleaned up before the processor is started. -/
example : GentleRun (fun _ _ => true) cfg0 (init pid0 [()] false) [.append (ev0 1 10) none, .cleanup [.pending], .append (ev0 1 10) none, .start] := by
  refine ⟨trivial, ?_, trivial, trivial, trivial⟩
  intro st _ hor id _
  constructor
  · rfl
  · rfl

/-! ### C32: no accepted event is lost -/

def isRefusal : Processor.Obs → Bool
  | .full _ => true
  | .badPriority _ => true
  | .missing _ => true
  | _ => false

/-- No `enqueue` has raised so far. -/
def NoRefusal (s : Sys γ) : Prop := ∀ p, s.proc = some p → ∀ o ∈ p.log, isRefusal o = false

/-- The scheduler choices excluded by the partial theorem: a cancelled or failing `process()` call, an event that ends as `pending`. -/
def Smooth : Act γ → Prop
  | .cancel _ => False
  | .go _ perm => perm ≠ .raise
  | .finish _ st => st ≠ .pending
  | _ => True

theorem log_advance (c : Processor.Cfg) (s : Processor.Sys) (i : Nat) (cl : Processor.Call) (found : Bool) (perm : Processor.Perm) :
    ∃ l, (Processor.advance c s i cl found perm).log = s.log ++ l := by
  unfold Processor.advance
  cases cl.pc with
  | check => simp only; split <;> exact ⟨[], by simp [Processor.setCall]⟩
  | getting =>
    simp only
    cases Heapq.pop Processor.entryLt s.queue with
    | none => exact ⟨[], by simp⟩
    | some r =>
      simp only
      split
      · exact ⟨[.take i r.1], rfl⟩
      · exact ⟨[.take i r.1, .skip i r.1.2], by simp [Processor.setCall, Processor.Sys.obs]⟩
  | asking e =>
    cases perm with
    | grant => exact ⟨[_], rfl⟩
    | deny =>
      simp only [Processor.deny]
      split
      · exact ⟨[.deny i e.2, .abort i e.2], by simp [Processor.setCall, Processor.Sys.obs]⟩
      · exact ⟨[_], rfl⟩
    | raise => exact ⟨[], by simp [Processor.setCall]⟩
  | granted e => exact ⟨[_], rfl⟩
  | aborting e => exact ⟨[_], rfl⟩
  | requeueing e n => exact ⟨[_], rfl⟩
  | draining =>
    simp only
    split
    · exact ⟨[_], rfl⟩
    · exact ⟨[], by simp [Processor.setCall]⟩
  | done => exact ⟨[], by simp⟩
  | failed => exact ⟨[], by simp⟩

theorem log_step (c : Processor.Cfg) (s : Processor.Sys) (a : Processor.Act) : ∃ l, (Processor.step c s a).log = s.log ++ l := by
  cases a with
  | enqueue id prio created =>
    rcases load_enqueue c s id prio created with ⟨_, _, h | h | ⟨h, _⟩⟩ | ⟨_, h, _⟩
    · exact ⟨_, h⟩
    · exact ⟨_, h⟩
    · exact ⟨_, h⟩
    · exact ⟨[], by rw [List.append_nil]; exact h⟩
  | enqPut k =>
    simp only [Processor.step, Processor.enqPut]
    split
    · exact ⟨[], by simp⟩
    · exact ⟨[_], rfl⟩
  | process => exact ⟨[], by simp [Processor.step]⟩
  | go i found perm =>
    simp only [Processor.step]
    split
    · exact ⟨[], by simp⟩
    · exact log_advance _ _ _ _ _ _
  | cancel i =>
    simp only [Processor.step]
    split
    · exact ⟨[], by simp⟩
    · split
      · exact ⟨[], by simp⟩
      · exact ⟨[], by simp [Processor.setCall]⟩
  | stop => exact ⟨[_], rfl⟩
  | forget id => exact ⟨[_], rfl⟩

theorem log_forgetAll (c : Processor.Cfg) (ids : List Nat) : ∀ s : Processor.Sys, ∃ l, (forgetAll c s ids).log = s.log ++ l := by
  induction ids with
  | nil => intro s; exact ⟨[], by simp [forgetAll]⟩
  | cons x xs ih =>
    intro s
    obtain ⟨l, hl⟩ := ih (Processor.step c s (.forget x))
    exact ⟨[.forget x] ++ l, by rw [← List.append_assoc]; exact hl⟩

/-- A step keeps the processor (or creates it) and only adds to its log. -/
theorem proc_step (sub : γ → γ → Bool) (c : Processor.Cfg) (s : Sys γ) (a : Act γ) {p : Processor.Sys} (hp : s.proc = some p) :
    ∃ q l, (step sub c s a).proc = some q ∧ q.log = p.log ++ l := by
  have same : ∃ q l, s.proc = some q ∧ q.log = p.log ++ l := ⟨p, [], hp, by simp⟩
  have pstep : ∀ b, ∃ q l, s.proc.map (fun p => Processor.step c p b) = some q ∧ q.log = p.log ++ l := by
    intro b
    obtain ⟨l, hl⟩ := log_step c p b
    exact ⟨_, l, by rw [hp]; rfl, hl⟩
  cases a with
  | append ev prio =>
    simp only [Executor.step]
    split
    · exact same
    · next f e => exact pstep (.enqueue ev.id prio ((f.items.items.get? ev.id).map (fun x => x.data)))
  | start => simp only [Executor.step, hp]; exact ⟨p, [], rfl, by simp⟩
  | fill =>
    simp only [Executor.step, hp]
    cases s.backfill with
    | nil => exact same
    | cons x xs =>
      obtain ⟨l, hl⟩ := log_step c p (.enqueue x none ((s.flow.items.items.get? x).map (fun x => x.data)))
      exact ⟨_, l, rfl, hl⟩
  | enqPut k => exact pstep _
  | forward => exact pstep _
  | go i perm =>
    simp only [Executor.step, hp]
    cases p.calls[i]? with
    | none => exact same
    | some cl =>
      simp only
      split
      · exact same
      · unfold goOn
        cases fileOf cl.pc with
        | none =>
          obtain ⟨l, hl⟩ := log_step c p (.go i (found s.flow p) perm)
          exact ⟨_, l, rfl, hl⟩
        | some r =>
          simp only
          split
          · obtain ⟨l, hl⟩ := log_step c p (.cancel i); exact ⟨_, l, rfl, hl⟩
          · obtain ⟨l, hl⟩ := log_step c p (.go i true perm); exact ⟨_, l, rfl, hl⟩
  | cancel i => exact pstep _
  | finish k st => simp only [Executor.step]; split <;> exact same
  | vanish k => exact same
  | stop => exact pstep _
  | cleanup sts =>
    obtain ⟨l, hl⟩ := log_forgetAll c (cleanup s.flow sts).2.1 p
    exact ⟨_, l, by simp only [Executor.step, hp, Option.map_some], hl⟩

theorem NoRefusal.back {sub : γ → γ → Bool} {c : Processor.Cfg} {s : Sys γ} {a : Act γ} (h : NoRefusal (step sub c s a)) : NoRefusal s := by
  intro p hp o ho
  obtain ⟨q, l, h1, h2⟩ := proc_step sub c s a hp
  exact h q h1 o (by rw [h2]; simp [ho])

/-- Once the processor exists, every event listed as pending is queued or in hand. -/
def K (s : Sys γ) : Prop := s.proc ≠ none → ∀ id, (listed s.flow .pending).count id ≤ waiting s id

theorem K.proc {s : Sys γ} (h : K s) (c : Processor.Cfg) (a : Processor.Act)
    (ha : ∀ p, s.proc = some p → ∀ id, load p id ≤ load (Processor.step c p a) id) :
    K { s with proc := s.proc.map (fun p => Processor.step c p a) } := by
  intro hn id
  cases hs : s.proc with
  | none => simp [hs] at hn
  | some q =>
    have h1 := h (by rw [hs]; simp) id
    have h2 := ha q hs id
    simp only [waiting, hs, Option.map_some] at h1 ⊢
    omega

/-- Under the invariant, what is found in the queue is in the pile. -/
theorem found_true {pid : Status → Nat} {s : Sys γ} (h : J pid s) {p : Processor.Sys} (hp : s.proc = some p) (hne : p.queue ≠ []) :
    found s.flow p = true := by
  obtain ⟨slot, hsim⟩ := h.heap p hp
  unfold found
  cases hq : Heapq.pop Processor.entryLt p.queue with
  | none => exact absurd ((Heapq.pop_none _ _).1 hq) hne
  | some r =>
    simp only
    have hperm := (Heapq.pop_spec Processor.entryOrder hsim.heap hq).1
    have h1 : 1 ≤ p.queue.countP (isId r.1.2) := by
      rw [hperm.countP_eq, List.countP_cons]
      have : isId r.1.2 r.1 = true := by simp [isId]
      rw [this]; simp
    have h2 := h.pend r.1.2
    have hm : r.1.2 ∈ listed s.flow .pending := List.count_pos_iff.1 (by
      simp only [waiting, hp, load] at h2; omega)
    have := h.part.mem hm
    rw [h.eg.good.piles.items.mem_iff] at this
    exact (Dict.has_iff _ _).2 this

theorem load_go_eq {pid : Status → Nat} {s : Sys γ} (h : J pid s) (c : Processor.Cfg) {p : Processor.Sys} (hp : s.proc = some p) {i : Nat}
    {cl : Processor.Call} (hi : p.calls[i]? = some cl) (perm : Processor.Perm) (hperm : perm ≠ .raise) (id : Nat) :
    load (Processor.advance c p i cl (found s.flow p) perm) id + (if filed cl.pc id then 1 else 0) = load p id := by
  obtain ⟨slot, hsim⟩ := h.heap p hp
  by_cases hq : p.queue = []
  · cases hpc : cl.pc with
    | getting =>
      simp only [Processor.advance, hpc, (Heapq.pop_none Processor.entryLt p.queue).2 hq]
      simp [filed, fileOf]
    | _ =>
      have h1 := (load_advance c p hsim.heap hi true perm id).2 rfl hperm
      rw [hpc] at h1
      simp only [Processor.advance, hpc] at h1 ⊢
      exact h1
  · rw [found_true h hp hq]
    exact (load_advance c p hsim.heap hi true perm id).2 rfl hperm

theorem K.step {pid : Status → Nat} {s : Sys γ} (h : J pid s) (hk : K s) (sub : γ → γ → Bool) (c : Processor.Cfg) (a : Act γ)
    (hg : Gentle a) (hs : Smooth a) (hr : NoRefusal (Executor.step sub c s a)) : K (Executor.step sub c s a) := by
  have refuse : ∀ {p q : Processor.Sys} {o : Processor.Obs}, (Executor.step sub c s a).proc = some q → q.log = p.log ++ [o] →
      isRefusal o = true → False := by
    intro p q o hq hl ho
    have := hr q hq o (by rw [hl]; simp)
    rw [ho] at this; cases this
  cases a with
  | append ev prio =>
    rcases addEvent_cases h.eg sub ev with ⟨e, he⟩ | ⟨hke, f', he, h1, h2, h3⟩
    · simp only [Executor.step, he]; exact hk
    · simp only [Executor.step, he] at refuse ⊢
      intro hn id
      cases hp : s.proc with
      | none => simp [hp] at hn
      | some q =>
        have hki := hk (by rw [hp]; simp) id
        have hc : (listed f' .pending).count id = (listed s.flow .pending).count id + (if ev.id = id then 1 else 0) := by
          rw [h3, List.count_append]
          by_cases e : ev.id = id <;> simp [e, List.count_singleton]
        show (listed f' .pending).count id ≤ _
        rw [hc]
        simp only [waiting, hp, Option.map_some] at hki ⊢
        rcases enqueue_load c f' q ev.id prio with ⟨_, _, hl | hl | hl⟩ | ⟨_, _, hl⟩
        · exact (refuse (by rw [hp]; rfl) hl rfl).elim
        · exact (refuse (by rw [hp]; rfl) hl rfl).elim
        · exact (refuse (by rw [hp]; rfl) hl rfl).elim
        · rw [hl]; omega
  | start =>
    simp only [Executor.step]
    cases hp : s.proc with
    | some q => exact hk
    | none =>
      obtain ⟨e1, e2⟩ := getEvents_ok h.eg h.part .pending
      simp only [e1, e2]
      intro _ id
      simp [waiting]
  | fill =>
    simp only [Executor.step] at refuse ⊢
    cases hp : s.proc with
    | none => exact hk
    | some q =>
      cases hb : s.backfill with
      | nil => exact hk
      | cons x xs =>
        rw [hp, hb] at refuse
        simp only at refuse ⊢
        intro _ id
        have hki := hk (by rw [hp]; simp) id
        show (listed s.flow .pending).count id ≤ _
        simp only [waiting, hp, hb, List.count_cons, beq_iff_eq] at hki ⊢
        rcases enqueue_load c s.flow q x none with ⟨_, _, hl | hl | hl⟩ | ⟨hrj, _, hl⟩
        · exact (refuse rfl hl rfl).elim
        · exact (refuse rfl hl rfl).elim
        · exact (refuse rfl hl rfl).elim
        · rw [if_neg (by rw [hrj]; simp), hl]; omega
  | enqPut k => exact hk.proc c _ (fun p _ id => Nat.le_of_eq (load_enqPut p k id).symm)
  | forward =>
    refine hk.proc c _ (fun p _ id => ?_)
    simp [Processor.step, load, List.countP_append, holds, Processor.Call.held]
  | go i perm =>
    simp only [Executor.step]
    cases hp : s.proc with
    | none => exact hk
    | some p =>
      simp only
      cases hi : p.calls[i]? with
      | none => exact hk
      | some cl =>
        simp only
        split
        · exact hk
        · unfold Executor.goOn
          have hk' := hk (by rw [hp]; simp)
          simp only [waiting, hp] at hk'
          cases hfo : fileOf cl.pc with
          | none =>
            intro _ id
            have hl := load_go_eq h c hp hi perm hs id
            have e1 : filed cl.pc id = false := by simp only [filed, hfo]
            rw [e1] at hl
            simp at hl
            have := hk' id
            simp only [waiting, Processor.step, hi, hl]
            exact this
          | some r =>
            obtain ⟨x, st⟩ := r
            obtain ⟨hh, hf, hfi, hst⟩ := fileOf_holds hfo
            have hw : 1 ≤ waiting s x := by
              have := waiting_pos hi hh
              simp only [waiting, hp]; omega
            have hmem : x ∈ listed s.flow .pending := List.count_pos_iff.1 (by have := h.pend x; omega)
            obtain ⟨f', h1, h2, h3, h4, h5⟩ := Part.update h.eg h.part (h.part.mem hmem) st
            simp only [h1]
            intro _ id
            obtain ⟨slot, hsim⟩ := h.heap p hp
            have hl := (load_advance c p hsim.heap hi true perm id).2 rfl hs
            have hne : st ≠ .pending := by
              rcases hst with ⟨rfl, _⟩ | ⟨rfl, _⟩ <;> intro h <;> cases h
            have hki := hk' id
            show (listed f' .pending).count id ≤ _
            rw [count_update h5]
            simp only [waiting, Processor.step, hi]
            by_cases e : id = x
            · subst e
              rw [hf] at hl
              have : ¬ (Status.pending = st) := fun h => hne h.symm
              simp [this] at hl ⊢
              omega
            · have e1 : filed cl.pc id = false := by
                rw [Bool.eq_false_iff]; intro hc; exact e ((hfi id).1 hc)
              rw [e1] at hl
              rw [if_neg e]
              simp at hl
              omega
  | cancel i => exact hs.elim
  | finish k st =>
    simp only [Executor.step]
    cases hkr : s.runs[k]? with
    | none => exact hk
    | some r =>
      simp only
      have hcr := countP_eraseIdx (isRun r.2) hkr
      have hmem : r.2 ∈ listed s.flow .processing := List.count_pos_iff.1 (by
        have e : isRun r.2 r = true := by simp [isRun]
        rw [e] at hcr; simp at hcr
        have := h.runs r.2; omega)
      obtain ⟨f', h1, h2, h3, h4, h5⟩ := Part.update h.eg h.part (h.part.mem hmem) st
      rw [h1]
      intro hn id
      have hki := hk hn id
      show (listed f' .pending).count id ≤ waiting s id
      rw [count_update h5]
      have : ¬ (Status.pending = st) := fun h => hs h.symm
      rw [if_neg this]
      split <;> omega
  | vanish k => exact hk
  | stop => exact hk.proc c _ (fun p _ id => Nat.le_refl _)
  | cleanup sts =>
    simp only [Executor.step]
    obtain ⟨f', ids, h1, h2, h3, h4⟩ := cleanup_ok sts s.flow h.eg h.part
    rw [h1]
    intro hn id
    cases hp : s.proc with
    | none => simp [hp] at hn
    | some q =>
      have hki := hk (by rw [hp]; simp) id
      show (listed f' .pending).count id ≤ _
      rw [h4.lists, if_neg hg.1]
      simp only [waiting, hp, Option.map_some, (load_forgetAll c ids q id).1] at hki ⊢
      exact hki

theorem K.run {pid : Status → Nat} (sub : γ → γ → Bool) (c : Processor.Cfg) (as : List (Act γ)) {s : Sys γ} (h : J pid s) (hk : K s)
    (hg : ∀ a ∈ as, Gentle a) (hs : ∀ a ∈ as, Smooth a) (hr : NoRefusal (Executor.run sub c s as)) : K (Executor.run sub c s as) := by
  induction as generalizing s with
  | nil => exact hk
  | cons a as ih =>
    have back : ∀ (bs : List (Act γ)) (t : Sys γ), NoRefusal (Executor.run sub c t bs) → NoRefusal t := by
      intro bs
      induction bs with
      | nil => exact fun _ h => h
      | cons b bs ihb => exact fun t h => (ihb _ h).back
    exact ih (h.step sub c a ((hg a (by simp)).at s)) (hk.step h sub c a (hg a (by simp)) (hs a (by simp)) (back as _ hr))
      (fun b hb => hg b (by simp [hb])) (fun b hb => hs b (by simp [hb])) hr

/-- Once the processor exists, in every history in which no `enqueue` is refused, no `process()` call fails or is cancelled, no event ends as `pending` and
clean-ups leave waiting and executing events alone: an event listed as pending is in exactly one place from which it will be
processed: in the queue, about to be put there, or in the hands of a `process()` call.
Missing from the full claim: refused `enqueue`s and failed or cancelled `process()` calls; there events are lost
(`C32_full_violation`, `C32_raise_violation`). -/
theorem C32_no_event_lost_partial {pid : Status → Nat} (inj : ∀ a b, pid a = pid b → a = b) (cls : List γ) (strict : Bool)
    (sub : γ → γ → Bool) (c : Processor.Cfg) (as : List (Act γ)) (hg : ∀ a ∈ as, Gentle a) (hs : ∀ a ∈ as, Smooth a)
    (hr : NoRefusal (run sub c (init pid cls strict) as)) (p : Processor.Sys)
    (hp : (run sub c (init pid cls strict) as).proc = some p) (id : Nat)
    (hid : id ∈ listed (run sub c (init pid cls strict) as).flow .pending) :
    p.queue.countP (fun e => e.2 == id) + p.pending.countP (fun e => e.2 == id) +
      p.calls.countP (holds id) + (run sub c (init pid cls strict) as).backfill.count id = 1 := by
  have h : J pid (run sub c (init pid cls strict) as) := (j_init inj cls strict).run sub c as hg
  have hk : K (run sub c (init pid cls strict) as) := by
    refine K.run sub c as (j_init inj cls strict) ?_ hg hs hr
    intro hn; exact absurd rfl hn
  have h1 := hk (by rw [hp]; simp) id
  have h2 := h.pend id
  have h3 := (h.part.nodup .pending).count (a := id)
  rw [if_pos hid] at h3
  simp only [waiting, hp, load] at h1 h2
  have e : isId id = (fun e => e.2 == id) := rfl
  rw [e] at h1 h2
  omega

/-- Non-vacuity: two events accepted before and after `start`; one is denied and queued again. -/
example :
    let as : List (Act Unit) := [.append (ev0 1 10) none, .start, .fill, .append (ev0 2 5) none, .enqPut 0, .enqPut 0, .forward,
      .go 0 .grant, .go 0 .grant, .go 0 .deny, .go 0 .grant]
    let s := run (fun _ _ => true) cfg0 (init pid0 [()] false) as
    listed s.flow .pending = [1, 2] ∧ s.proc.map (fun p => p.queue) = some [(6, 2), (10, 1)] ∧
      s.proc.map (fun p => p.log.any isRefusal) = some false := by
  refine ⟨by decide, by decide, by decide⟩

/-- `append` on a full queue raises QueueFullError, but the event stays listed as pending, is not queued, and a later `start()` does
not queue it either. -/
theorem C32_full_violation :
    let s := run (fun _ _ => true) { queueCapacity := 1, maxQueue := 1, maxDenial := 1 } (init pid0 [()] false)
      [.start, .append (ev0 1 10) none, .enqPut 0, .append (ev0 2 5) none, .start, .fill]
    listed s.flow .pending = [1, 2] ∧ s.backfill = [] ∧
      s.proc.map (fun p => (p.queue, p.pending, p.calls, p.log)) = some ([(10, 1)], [], [], [.enq (10, 1), .full 2]) := by
  refine ⟨by decide, by decide, by decide⟩

/-- A `request_permission` that raises loses the event as well: it stays pending, and nothing holds or queues it. -/
theorem C32_raise_violation :
    let s := run (fun _ _ => true) cfg0 (init pid0 [()] false)
      [.start, .append (ev0 1 10) none, .enqPut 0, .forward, .go 0 .grant, .go 0 .grant, .go 0 .raise]
    listed s.flow .pending = [1] ∧ s.backfill = [] ∧
      s.proc.map (fun p => (p.queue, p.pending, p.calls)) = some ([], [], [{ processed := 0, pc := .failed }]) := by
  refine ⟨by decide, by decide, by decide⟩

/-- `start()` on more pending events than the queue holds: the rest is never queued. -/
theorem C32_start_violation :
    let s := run (fun _ _ => true) { queueCapacity := 1, maxQueue := 1, maxDenial := 1 } (init pid0 [()] false)
      [.append (ev0 1 10) none, .append (ev0 2 5) none, .append (ev0 3 7) none, .start, .fill, .enqPut 0, .fill, .start, .fill]
    listed s.flow .pending = [1, 2, 3] ∧ s.backfill = [] ∧
      s.proc.map (fun p => (p.queue, p.pending, p.calls)) = some ([(10, 1)], [], []) := by
  refine ⟨by decide, by decide, by decide⟩

/-! ### C94: a finished event is listed under the status it finished with -/

/-- When an executing event ends and its `finally` block completes, it is listed under the status it ended with, and under no other.
Missing: an event cancelled together with its task group (`C94_cancelled_violation`). -/
theorem C94_filed_partial {pid : Status → Nat} (inj : ∀ a b, pid a = pid b → a = b) (cls : List γ) (strict : Bool)
    (sub : γ → γ → Bool) (c : Processor.Cfg) (as : List (Act γ)) (hg : ∀ a ∈ as, Gentle a) (k : Nat) (st : Status) (i id : Nat)
    (hk : (run sub c (init pid cls strict) as).runs[k]? = some (i, id)) (st' : Status) :
    id ∈ listed (run sub c (init pid cls strict) (as ++ [.finish k st])).flow st' ↔ st' = st := by
  have h : J pid (run sub c (init pid cls strict) as) := (j_init inj cls strict).run sub c as hg
  have h' : J pid (run sub c (init pid cls strict) (as ++ [.finish k st])) := (j_init inj cls strict).run sub c _ (by
    intro a ha
    rw [List.mem_append, List.mem_singleton] at ha
    rcases ha with ha | rfl
    · exact hg a ha
    · trivial)
  have hin : id ∈ listed (run sub c (init pid cls strict) (as ++ [.finish k st])).flow st := by
    unfold run
    rw [List.foldl_append]
    show id ∈ listed (step sub c (run sub c (init pid cls strict) as) (.finish k st)).flow st
    simp only [step, hk]
    obtain ⟨f', h1, _, _, h4⟩ := update_spec h.eg id st
    rw [h1]
    show id ∈ listed f' st
    rw [h4]; simp
  constructor
  · intro hm; exact h'.part.unique hm hin
  · rintro rfl; exact hin

/-- Non-vacuity: `demo` before and after an event ends. -/
example : (run (fun _ _ => true) cfg0 (init pid0 [()] false) (demo.take 11)).runs[0]? = some (0, 2) := by decide

/-- The `process()` call is cancelled: the executing event ends (as cancelled), but stays listed as processing for ever. -/
theorem C94_cancelled_violation :
    let s := run (fun _ _ => true) cfg0 (init pid0 [()] false)
      [.append (ev0 1 10) none, .start, .fill, .enqPut 0, .forward, .go 0 .grant, .go 0 .grant, .go 0 .grant, .go 0 .grant,
        .cancel 0, .vanish 0]
    s.runs = [] ∧ listed s.flow .processing = [1] ∧ listed s.flow .cancelled = [] := by
  refine ⟨by decide, by decide, by decide⟩

end Verif.Executor
