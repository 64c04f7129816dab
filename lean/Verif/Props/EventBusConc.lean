import Verif.Model.EventBusConc
import Verif.Props.EventBus

/-!
# C292, C293: emissions that overlap with other calls
-/

set_option linter.unusedSectionVars false
set_option linter.unusedSimpArgs false
set_option linter.unusedVariables false

namespace Verif.EventBusConc

open Verif.EventBus (Bus Op Out Behaviour Spec Rel)

/-! ### Specification -/

/-- The calls of other methods than `emit` (and garbage collections) so far. -/
def opsOf (log : List Ev) : List Op := log.filterMap (fun v => match v with | .op o => some o | _ => none)

/-- The live subscriptions of a topic, as the calls so far say (C35). -/
def subscribers (log : List Ev) (t : String) : List Nat := (({} : Spec).after (opsOf log)).live t

/-- The number of emissions so far. -/
def emits (log : List Ev) : Nat := log.countP (fun v => match v with | .emitted _ _ => true | _ => false)

/-- Handler number `i` of emission `e` begins. -/
def isBegan (e i : Nat) : Ev → Bool
  | .began e' i' _ => e' == e && i' == i
  | _ => false

/-- The emission a thing belongs to. -/
def about : Ev → Option Nat
  | .began e _ _ => some e
  | .ended e _ => some e
  | .returned e => some e
  | .raised e => some e
  | _ => none

/-! ### Invariant -/

structure Per (log : List Ev) (e : Nat) (k : Task) : Prop where
  began : ∀ i h, .began e i h ∈ log ↔ i ∈ k.begun ∧ k.handlers[i]? = some h
  once : ∀ i, log.countP (isBegan e i) = if i ∈ k.begun then 1 else 0
  ended : ∀ i, .ended e i ∈ log ↔ i ∈ k.ended
  sub : ∀ i ∈ k.ended, i ∈ k.begun
  small : ∀ i ∈ k.begun, i < k.handlers.length
  over : (.returned e ∈ log ∨ .raised e ∈ log) ↔ k.running = false
  order : ∀ q r, log = q ++ .returned e :: r → ∀ i < k.handlers.length, .ended e i ∈ q
  after : ∀ q r i, log = q ++ .ended e i :: r → ∃ h, .began e i h ∈ q
  nothing : ∀ q v r, log = q ++ v :: r → (v = .returned e ∨ v = .raised e) → ∀ w ∈ r, about w ≠ some e

theorem split_last {α : Type} {l q r : List α} {x v : α} (h : l ++ [v] = q ++ x :: r) : (r = [] ∧ l = q ∧ v = x) ∨ ∃ r', r = r' ++ [v] ∧ l = q ++ x :: r' := by
  rcases List.eq_nil_or_concat r with rfl | ⟨r', w, rfl⟩
  · left
    have := List.append_inj' h rfl
    exact ⟨rfl, this.1, by simpa using this.2⟩
  · right
    rw [List.concat_eq_append] at *
    have e : q ++ x :: (r' ++ [w]) = (q ++ x :: r') ++ [w] := by simp
    rw [e] at h
    have := List.append_inj' h rfl
    have hw : v = w := by simpa using this.2
    exact ⟨r', by rw [hw], this.1⟩

theorem countP_snoc {α : Type} (p : α → Bool) (l : List α) (v : α) : (l ++ [v]).countP p = l.countP p + if p v then 1 else 0 := by
  rw [List.countP_append, List.countP_cons, List.countP_nil, Nat.zero_add]

/-- Something about another emission. -/
theorem Per.other {log : List Ev} {e : Nat} {k : Task} (h : Per log e k) {v : Ev} (hv : about v ≠ some e) : Per (log ++ [v]) e k := by
  have hm : ∀ w, about w = some e → (w ∈ log ++ [v] ↔ w ∈ log) := by
    intro w hw
    rw [List.mem_append, List.mem_singleton]
    refine ⟨fun hx => ?_, Or.inl⟩
    rcases hx with hx | rfl
    · exact hx
    · exact absurd hw hv
  have hs : ∀ q x r, about x = some e → log ++ [v] = q ++ x :: r → ∃ r', r = r' ++ [v] ∧ log = q ++ x :: r' := by
    intro q x r hx heq
    rcases split_last heq with ⟨-, -, rfl⟩ | h
    · exact absurd hx hv
    · exact h
  constructor
  · intro i x; rw [hm _ rfl]; exact h.began i x
  · intro i
    rw [countP_snoc, h.once]
    have : isBegan e i v = false := by
      cases v <;> simp [isBegan, about] at hv ⊢
      intro hx; exact absurd hx hv
    rw [this]; simp
  · intro i; rw [hm _ rfl]; exact h.ended i
  · exact h.sub
  · exact h.small
  · rw [hm _ rfl, hm _ rfl]; exact h.over
  · intro q r heq
    obtain ⟨r', -, h2⟩ := hs q _ r rfl heq
    exact h.order q r' h2
  · intro q r i heq
    obtain ⟨r', -, h2⟩ := hs q _ r rfl heq
    exact h.after q r' i h2
  · intro q x r heq hx w hw
    obtain ⟨r', h1, h2⟩ := hs q x r (by rcases hx with rfl | rfl <;> rfl) heq
    rw [h1, List.mem_append, List.mem_singleton] at hw
    rcases hw with hw | rfl
    · exact h.nothing q x r' h2 hx w hw
    · exact hv

theorem Per.not_over {log : List Ev} {e : Nat} {k : Task} (h : Per log e k) (hr : k.running = true) : .returned e ∉ log ∧ .raised e ∉ log := by
  constructor
  · intro hm; have := h.over.1 (Or.inl hm); rw [hr] at this; cases this
  · intro hm; have := h.over.1 (Or.inr hm); rw [hr] at this; cases this

theorem mem_of_split {α : Type} {l q r : List α} {x : α} (h : l = q ++ x :: r) : x ∈ l := by rw [h]; simp

theorem Per.start {log : List Ev} {e : Nat} {k : Task} (h : Per log e k) (hr : k.running = true) {i x : Nat} (hi : i ∉ k.begun) (hx : k.handlers[i]? = some x) :
    Per (log ++ [.began e i x]) e { k with begun := i :: k.begun } := by
  obtain ⟨n1, n2⟩ := h.not_over hr
  constructor
  · intro j y
    rw [List.mem_append, List.mem_singleton, h.began]
    simp only [Ev.began.injEq, true_and, List.mem_cons]
    constructor
    · rintro (⟨h1, h2⟩ | ⟨rfl, rfl⟩)
      · exact ⟨Or.inr h1, h2⟩
      · exact ⟨Or.inl rfl, hx⟩
    · rintro ⟨rfl | h1, h2⟩
      · rw [hx] at h2; cases h2; exact Or.inr ⟨rfl, rfl⟩
      · exact Or.inl ⟨h1, h2⟩
  · intro j
    rw [countP_snoc, h.once]
    by_cases hj : j = i
    · subst hj; simp [isBegan, hi]
    · have : isBegan e j (.began e i x) = false := by simp [isBegan]; exact fun hh => hj hh.symm
      rw [this]
      simp [hj]
  · intro j; rw [List.mem_append, List.mem_singleton, h.ended]; simp
  · intro j hj; exact List.mem_cons_of_mem _ (h.sub j hj)
  · intro j hj
    rcases List.mem_cons.1 hj with rfl | hj
    · exact (List.getElem?_eq_some_iff.1 hx).1
    · exact h.small j hj
  · simp only [List.mem_append, List.mem_singleton, reduceCtorEq, or_false]; exact h.over
  · intro q r heq
    have := mem_of_split heq
    simp [n1] at this
  · intro q r j heq
    rcases split_last heq with ⟨-, -, hv⟩ | ⟨r', -, h2⟩
    · cases hv
    · exact h.after q r' j h2
  · intro q v r heq hv
    have := mem_of_split heq
    rcases hv with rfl | rfl <;> simp [n1, n2] at this

theorem Per.finish {log : List Ev} {e : Nat} {k : Task} (h : Per log e k) {i : Nat} (hi : i ∈ k.begun) (hn : i ∉ k.ended) :
    Per (log ++ [.ended e i]) e { k with ended := i :: k.ended } ∨ k.running = false := by
  cases hr : k.running with
  | false => exact Or.inr rfl
  | true =>
    left
    obtain ⟨n1, n2⟩ := h.not_over hr
    constructor
    · intro j y; rw [List.mem_append, List.mem_singleton]; simp; exact h.began j y
    · intro j; rw [countP_snoc, h.once]; simp [isBegan]
    · intro j
      rw [List.mem_append, List.mem_singleton, h.ended]
      simp only [Ev.ended.injEq, true_and, List.mem_cons]
      exact or_comm
    · intro j hj
      rcases List.mem_cons.1 hj with rfl | hj
      · exact hi
      · exact h.sub j hj
    · exact h.small
    · simp only [List.mem_append, List.mem_singleton, reduceCtorEq, or_false]; rw [h.over, hr]; simp
    · intro q r heq
      have := mem_of_split heq
      simp [n1] at this
    · intro q r j heq
      rcases split_last heq with ⟨-, rfl, hv⟩ | ⟨r', -, h2⟩
      · cases hv
        have hl := h.small i hi
        exact ⟨k.handlers[i], (h.began i _).2 ⟨hi, List.getElem?_eq_getElem hl⟩⟩
      · exact h.after q r' j h2
    · intro q v r heq hv
      have := mem_of_split heq
      rcases hv with rfl | rfl <;> simp [n1, n2] at this

theorem Per.stop {log : List Ev} {e : Nat} {k : Task} (h : Per log e k) (hr : k.running = true) {v : Ev}
    (hv : (v = .returned e ∧ ∀ i < k.handlers.length, i ∈ k.ended) ∨ v = .raised e) : Per (log ++ [v]) e { k with running := false } := by
  obtain ⟨n1, n2⟩ := h.not_over hr
  have hv' : v = .returned e ∨ v = .raised e := hv.imp And.left id
  constructor
  · intro j y; rw [List.mem_append, List.mem_singleton, h.began]; rcases hv' with rfl | rfl <;> simp
  · intro j; rw [countP_snoc, h.once]; rcases hv' with rfl | rfl <;> simp [isBegan]
  · intro j; rw [List.mem_append, List.mem_singleton, h.ended]; rcases hv' with rfl | rfl <;> simp
  · exact h.sub
  · exact h.small
  · rcases hv' with rfl | rfl <;> simp
  · intro q r heq i hi
    rcases split_last heq with ⟨-, rfl, hx⟩ | ⟨r', -, h2⟩
    · rcases hv with ⟨-, hall⟩ | hv
      · exact (h.ended i).2 (hall i hi)
      · rw [hv] at hx; cases hx
    · exact absurd (mem_of_split h2) n1
  · intro q r j heq
    rcases split_last heq with ⟨-, -, hx⟩ | ⟨r', -, h2⟩
    · rcases hv' with rfl | rfl <;> cases hx
    · exact h.after q r' j h2
  · intro q w r heq hw u hu
    rcases split_last heq with ⟨rfl, -, -⟩ | ⟨r', -, h2⟩
    · cases hu
    · have := mem_of_split h2
      rcases hw with rfl | rfl
      · exact absurd this n1
      · exact absurd this n2

/-- The invariant of the system. -/
structure Inv (s : St) : Prop where
  rel : Rel s.bus (({} : Spec).after (opsOf s.log))
  per : ∀ (e : Nat) k, s.tasks[e]? = some k → Per s.log e k
  fresh : ∀ e, s.tasks.length ≤ e → ∀ v ∈ s.log, about v ≠ some e
  count : emits s.log = s.tasks.length
  closed : ∀ (e : Nat) k, s.tasks[e]? = some k → k.running = false → ∀ i ∈ k.begun, i ∈ k.ended

theorem per_new {log : List Ev} {e : Nat} (h : ∀ v ∈ log, about v ≠ some e) (hs : List Nat) : Per log e { handlers := hs } := by
  have hn : ∀ v, about v = some e → v ∉ log := fun v hv hm => h v hm hv
  have hsp : ∀ v q r, about v = some e → log ≠ q ++ v :: r := fun v q r hv heq => hn v hv (mem_of_split heq)
  constructor
  · intro i x; simp [hn (.began e i x) rfl]
  · intro i
    simp only [List.not_mem_nil, if_false]
    rw [List.countP_eq_zero]
    intro v hv hb
    cases v <;> simp [isBegan] at hb
    exact h _ hv (by rw [← hb.1]; rfl)
  · intro i; simp [hn (.ended e i) rfl]
  · intro i hi; cases hi
  · intro i hi; cases hi
  · simp [hn (.returned e) rfl, hn (.raised e) rfl]
  · intro q r heq; exact absurd heq (hsp _ q r rfl)
  · intro q r i heq; exact absurd heq (hsp _ q r rfl)
  · intro q v r heq hv
    exact absurd heq (hsp v q r (by rcases hv with rfl | rfl <;> rfl))

theorem opsOf_append (l m : List Ev) : opsOf (l ++ m) = opsOf l ++ opsOf m := List.filterMap_append

theorem after_append (s : Spec) (a b : List Op) : s.after (a ++ b) = (s.after a).after b := by
  induction a generalizing s with
  | nil => rfl
  | cons x a ih => exact ih _

theorem emits_append (l m : List Ev) : emits (l ++ m) = emits l + emits m := List.countP_append

theorem per_cancel {log : List Ev} {e : Nat} {k : Task} (h : Per log e k) (b : Bool) : Per log e { k with cancelled := b } :=
  ⟨h.began, h.once, h.ended, h.sub, h.small, h.over, h.order, h.after, h.nothing⟩

theorem getD_map_cases {α β : Type} (o : Option α) (f : α → β) (d : β) : (o.map f).getD d = d ∨ ∃ a, o = some a ∧ (o.map f).getD d = f a := by
  cases o with
  | none => exact Or.inl rfl
  | some a => exact Or.inr ⟨a, rfl, rfl⟩

/-- A change of one task, with something said about it. -/
theorem Inv.update {s : St} (h : Inv s) {e : Nat} {k k' : Task} (hk : s.tasks[e]? = some k) {v : Ev} (hv : about v = some e) (hp : Per (s.log ++ [v]) e k')
    (hc : k'.running = false → ∀ i ∈ k'.begun, i ∈ k'.ended) : Inv { s with tasks := s.tasks.set e k', log := s.log ++ [v] } := by
  have hlt : e < s.tasks.length := (List.getElem?_eq_some_iff.1 hk).1
  have ho : opsOf [v] = [] := by cases v <;> simp [opsOf, about] at hv ⊢
  have he : emits [v] = 0 := by cases v <;> simp [emits, about] at hv ⊢
  constructor
  · show Rel s.bus (({} : Spec).after (opsOf (s.log ++ [v])))
    rw [opsOf_append, ho, List.append_nil]; exact h.rel
  · intro e' k2 h2
    have h2' : (s.tasks.set e k')[e']? = some k2 := h2
    rw [List.getElem?_set] at h2'
    by_cases hee : e = e'
    · subst hee
      rw [if_pos rfl, if_pos hlt] at h2'
      cases h2'; exact hp
    · rw [if_neg hee] at h2'
      exact (h.per e' k2 h2').other (by rw [hv]; intro hx; exact hee (by simpa using hx))
  · intro e' hle w hw
    have hle' : s.tasks.length ≤ e' := by simpa using hle
    rcases List.mem_append.1 hw with hw | hw
    · exact h.fresh e' hle' w hw
    · rw [List.mem_singleton] at hw; subst hw
      rw [hv]; intro hx
      have : e = e' := by simpa using hx
      omega
  · show emits (s.log ++ [v]) = (s.tasks.set e k').length
    rw [emits_append, he, List.length_set]; exact h.count
  · intro e' k2 h2 hr
    have h2' : (s.tasks.set e k')[e']? = some k2 := h2
    rw [List.getElem?_set] at h2'
    by_cases hee : e = e'
    · subst hee
      rw [if_pos rfl, if_pos hlt] at h2'
      cases h2'; exact hc hr
    · rw [if_neg hee] at h2'
      exact h.closed e' k2 h2' hr

theorem inv_step {eqv : Nat → Nat → Bool} (hid : ∀ x y, eqv x y = true → x = y) {s : St} (h : Inv s) (a : Act) : Inv (step eqv s a) := by
  cases a with
  | op o =>
    simp only [step]
    split
    · refine ⟨?_, fun e k hk => (h.per e k hk).other (by simp [about]), fun e he v hv => ?_, ?_, h.closed⟩
      · show Rel _ (({} : Spec).after (opsOf (s.log ++ [.op o])))
        rw [opsOf_append, after_append]
        exact (h.rel.step eqv hid o).1
      · rcases List.mem_append.1 hv with hv | hv
        · exact h.fresh e he v hv
        · rw [List.mem_singleton] at hv; subst hv; simp [about]
      · show emits (s.log ++ [.op o]) = _
        rw [emits_append]; simp [emits]; exact h.count
    · exact h
  | emit beh t =>
    simp only [step]
    have hrel : Rel (EventBus.emit s.bus beh t).1 (({} : Spec).after (opsOf s.log)) := (h.rel.step eqv hid (.emit beh t)).1
    have key : ∀ o, Inv (emitted s t (EventBus.emit s.bus beh t).1 o) := by
      intro o
      have hno : ∀ v, about v = none → ∀ e, s.tasks.length ≤ e → ∀ w ∈ s.log ++ [v], about w ≠ some e := by
        intro v hv e he w hw
        rcases List.mem_append.1 hw with hw | hw
        · exact h.fresh e he w hw
        · rw [List.mem_singleton] at hw; subst hw; rw [hv]; simp
      have hper : ∀ v, about v = none → ∀ (e : Nat) k, s.tasks[e]? = some k → Per (s.log ++ [v]) e k := by
        intro v hv e k hk; exact (h.per e k hk).other (by rw [hv]; simp)
      cases o with
      | ran hs =>
        simp only [emitted]
        refine ⟨?_, fun e k hk => ?_, fun e he => ?_, ?_, fun e k hk hr => ?_⟩
        · show Rel _ (({} : Spec).after (opsOf (s.log ++ [.emitted s.tasks.length t])))
          rw [opsOf_append]; simp [opsOf]; exact hrel
        · have hk' : (s.tasks ++ [{ handlers := hs }])[e]? = some k := hk
          rw [List.getElem?_append] at hk'
          split at hk'
          · exact hper _ rfl e k hk'
          · rename_i hlt
            have : e = s.tasks.length := by
              have := (List.getElem?_eq_some_iff.1 hk').1
              simp at this; omega
            subst this
            simp at hk'
            subst hk'
            exact per_new (hno _ rfl _ (Nat.le_refl _)) hs
        · exact hno _ rfl e (by simp at he; omega)
        · show emits (s.log ++ [.emitted s.tasks.length t]) = (s.tasks ++ [_]).length
          rw [emits_append]; simp [emits]; exact h.count
        · have hk' : (s.tasks ++ [{ handlers := hs }])[e]? = some k := hk
          rw [List.getElem?_append] at hk'
          split at hk'
          · exact h.closed e k hk' hr
          · have := List.mem_of_getElem? hk'
            rw [List.mem_singleton] at this
            subst this
            cases hr
      | _ =>
        simp only [emitted]
        refine ⟨?_, hper _ rfl, hno _ rfl, ?_, h.closed⟩
        · show Rel _ (({} : Spec).after (opsOf (s.log ++ [.refused t])))
          rw [opsOf_append]; simp [opsOf]; exact hrel
        · show emits (s.log ++ [.refused t]) = _
          rw [emits_append]; simp [emits]; exact h.count
    exact key _
  | start e i =>
    simp only [step]
    rcases getD_map_cases (s.tasks[e]?) (start s e i) s with hx | ⟨k, hk, hx⟩ <;> rw [hx]
    · exact h
    · simp only [start]
      cases hh : k.handlers[i]? with
      | none => exact h
      | some x =>
        simp only
        split
        · rename_i hc
          simp at hc
          exact h.update hk rfl ((h.per e k hk).start hc.1 hc.2 hh) (fun hr => by rw [hc.1] at hr; cases hr)
        · exact h
  | finish e i =>
    simp only [step]
    rcases getD_map_cases (s.tasks[e]?) (finish s e i) s with hx | ⟨k, hk, hx⟩ <;> rw [hx]
    · exact h
    · simp only [finish]
      split
      · rename_i hc
        simp at hc
        rcases (h.per e k hk).finish hc.1 hc.2 with hp | hr
        · exact h.update hk rfl hp (fun hr => by
            intro j hj
            exact List.mem_cons_of_mem _ (h.closed e k hk hr j hj))
        · exact absurd (h.closed e k hk hr i hc.1) hc.2
      · exact h
  | ret e =>
    simp only [step]
    rcases getD_map_cases (s.tasks[e]?) (ret s e) s with hx | ⟨k, hk, hx⟩ <;> rw [hx]
    · exact h
    · simp only [ret]
      split
      · rename_i hc
        simp at hc
        refine h.update hk rfl ((h.per e k hk).stop hc.1 (Or.inl ⟨rfl, hc.2⟩)) (fun _ j hj => ?_)
        exact hc.2 j ((h.per e k hk).small j hj)
      · exact h
  | cancel e =>
    simp only [step]
    have hget : ∀ (e' : Nat) k, (s.tasks.modify e (fun k => { k with cancelled := true }))[e']? = some k →
        ∃ k0 b, s.tasks[e']? = some k0 ∧ k = { k0 with cancelled := b } := by
      intro e' k hk
      rw [List.getElem?_modify] at hk
      cases h0 : s.tasks[e']? with
      | none => rw [h0] at hk; simp at hk
      | some k0 =>
        rw [h0] at hk
        simp only [Option.map_eq_map, Option.map_some, Option.some.injEq] at hk
        by_cases he : e = e'
        · rw [if_pos he] at hk; exact ⟨k0, true, rfl, hk.symm⟩
        · rw [if_neg he] at hk; exact ⟨k0, k0.cancelled, rfl, hk.symm⟩
    refine ⟨h.rel, fun e' k hk => ?_, fun e' he' => h.fresh e' (by simpa using he'), by simpa using h.count, fun e' k hk hr => ?_⟩
    · obtain ⟨k0, b, h0, rfl⟩ := hget e' k hk
      exact per_cancel (h.per e' k0 h0) b
    · obtain ⟨k0, b, h0, rfl⟩ := hget e' k hk
      exact h.closed e' k0 h0 hr
  | abandon e =>
    simp only [step]
    rcases getD_map_cases (s.tasks[e]?) (abandon s e) s with hx | ⟨k, hk, hx⟩ <;> rw [hx]
    · exact h
    · simp only [abandon]
      split
      · rename_i hc
        simp at hc
        exact h.update hk rfl ((h.per e k hk).stop hc.1.1 (Or.inr rfl)) (fun _ j hj => hc.2 j hj)
      · exact h

theorem inv_init : Inv {} :=
  ⟨EventBus.rel_init, fun e k h => (by simp at h), fun e _ v hv => (by simp at hv), rfl, fun e k h => (by simp at h)⟩

theorem inv_run {eqv : Nat → Nat → Bool} (hid : ∀ x y, eqv x y = true → x = y) (as : List Act) {s : St} (h : Inv s) : Inv (run eqv s as) := by
  induction as generalizing s with
  | nil => exact h
  | cons a as ih => exact ih (inv_step hid h a)

theorem run_append (eqv : Nat → Nat → Bool) (s : St) (as bs : List Act) : run eqv s (as ++ bs) = run eqv (run eqv s as) bs := List.foldl_append

theorem callAll_some {beh : Nat → Behaviour} {hs l : List Nat} (h : EventBus.callAll beh hs = some l) : l = hs := by
  induction hs generalizing l with
  | nil => simp only [EventBus.callAll, Option.some.injEq] at h; exact h.symm
  | cons a hs ih =>
    simp only [EventBus.callAll] at h
    cases hb : beh a with
    | raises => rw [hb] at h; cases h
    | awaitable =>
      rw [hb] at h
      obtain ⟨l', hl, rfl⟩ := Option.map_eq_some_iff.1 h
      rw [ih hl]

theorem emit_ran {b : Bus} {sp : Spec} (h : Rel b sp) (beh : Nat → Behaviour) (t : String) {hs : List Nat} (he : (EventBus.emit b beh t).2 = .ran hs) : hs = sp.live t := by
  by_cases hh : b.subs.has t = false
  · simp only [EventBus.emit] at he
    rw [if_pos hh] at he
    cases he
    rw [← h.live, EventBus.refs_of_not_has hh]; rfl
  · simp only [EventBus.emit] at he
    rw [if_neg hh, (h.cleanup t hh).2] at he
    cases hc : EventBus.callAll beh (sp.live t) with
    | none => rw [hc] at he; cases he
    | some l => rw [hc] at he; cases he; exact callAll_some hc

/-! ### Whom an emission is for -/

def Whom (s : St) : Prop := ∀ q r e t, s.log = q ++ .emitted e t :: r →
  e = emits q ∧ (∀ w ∈ q, about w ≠ some e) ∧ ∃ k, s.tasks[e]? = some k ∧ k.handlers = subscribers q t

def Keeps (s s' : St) : Prop := ∀ (e : Nat) k, s.tasks[e]? = some k → ∃ k', s'.tasks[e]? = some k' ∧ k'.handlers = k.handlers

theorem Keeps.refl (s : St) : Keeps s s := fun e k h => ⟨k, h, rfl⟩

theorem keeps_set (s : St) {e : Nat} {k k' : Task} (hk : s.tasks[e]? = some k) (hh : k'.handlers = k.handlers) (log : List Ev) :
    Keeps s { s with tasks := s.tasks.set e k', log := log } := by
  intro e' k2 h2
  show ∃ k3, (s.tasks.set e k')[e']? = some k3 ∧ _
  rw [List.getElem?_set]
  by_cases he : e = e'
  · subst he
    rw [h2] at hk; cases hk
    rw [if_pos rfl, if_pos (List.getElem?_eq_some_iff.1 h2).1]
    exact ⟨k', rfl, hh⟩
  · rw [if_neg he]; exact ⟨k2, h2, rfl⟩

theorem Whom.same {s s' : St} (h : Whom s) (hk : Keeps s s') (hl : s'.log = s.log) : Whom s' := by
  intro q r e t heq
  rw [hl] at heq
  obtain ⟨h1, h2, k, h3, h4⟩ := h q r e t heq
  obtain ⟨k', h5, h6⟩ := hk e k h3
  exact ⟨h1, h2, k', h5, by rw [h6, h4]⟩

theorem Whom.snoc {s s' : St} (h : Whom s) (hk : Keeps s s') {v : Ev} (hl : s'.log = s.log ++ [v]) (hv : ∀ e t, v ≠ .emitted e t) : Whom s' := by
  intro q r e t heq
  rw [hl] at heq
  rcases split_last heq with ⟨-, -, hx⟩ | ⟨r', -, h'⟩
  · exact absurd hx (hv e t)
  · obtain ⟨h1, h2, k, h3, h4⟩ := h q r' e t h'
    obtain ⟨k', h5, h6⟩ := hk e k h3
    exact ⟨h1, h2, k', h5, by rw [h6, h4]⟩

theorem whom_step {eqv : Nat → Nat → Bool} {s : St} (hi : Inv s) (h : Whom s) (a : Act) : Whom (step eqv s a) := by
  cases a with
  | op o =>
    simp only [step]
    split
    · exact h.snoc (s' := { s with bus := (EventBus.step eqv s.bus o).1, log := s.log ++ [.op o] }) (Keeps.refl s) rfl (by intros; simp)
    · exact h
  | emit beh t =>
    simp only [step]
    cases ho : (EventBus.emit s.bus beh t).2 with
    | ran hs =>
      simp only [emitted]
      intro q r e t' heq
      have heq' : s.log ++ [.emitted s.tasks.length t] = q ++ .emitted e t' :: r := heq
      rcases split_last heq' with ⟨rfl, rfl, hx⟩ | ⟨r', rfl, h'⟩
      · cases hx
        refine ⟨hi.count.symm, hi.fresh _ (Nat.le_refl _), { handlers := hs }, ?_, emit_ran hi.rel beh t ho⟩
        show (s.tasks ++ [{ handlers := hs }])[s.tasks.length]? = _
        simp
      · obtain ⟨h1, h2, k, h3, h4⟩ := h q r' e t' h'
        refine ⟨h1, h2, k, ?_, h4⟩
        show (s.tasks ++ [{ handlers := hs }])[e]? = _
        rw [List.getElem?_append_left (List.getElem?_eq_some_iff.1 h3).1]; exact h3
    | _ =>
      simp only [emitted]
      exact h.snoc (s' := { s with bus := (EventBus.emit s.bus beh t).1, log := s.log ++ [.refused t] }) (Keeps.refl s) rfl (by intros; simp)
  | start e i =>
    simp only [step]
    rcases getD_map_cases (s.tasks[e]?) (start s e i) s with hx | ⟨k, hk, hx⟩ <;> rw [hx]
    · exact h
    · simp only [start]
      cases hh : k.handlers[i]? with
      | none => exact h
      | some x =>
        simp only
        split
        · exact h.snoc (keeps_set s hk (by rfl) _) rfl (by intros; simp)
        · exact h
  | finish e i =>
    simp only [step]
    rcases getD_map_cases (s.tasks[e]?) (finish s e i) s with hx | ⟨k, hk, hx⟩ <;> rw [hx]
    · exact h
    · simp only [finish]
      split
      · exact h.snoc (keeps_set s hk (by rfl) _) rfl (by intros; simp)
      · exact h
  | ret e =>
    simp only [step]
    rcases getD_map_cases (s.tasks[e]?) (ret s e) s with hx | ⟨k, hk, hx⟩ <;> rw [hx]
    · exact h
    · simp only [ret]
      split
      · exact h.snoc (keeps_set s hk (by rfl) _) rfl (by intros; simp)
      · exact h
  | cancel e =>
    simp only [step]
    refine h.same (s' := { s with tasks := s.tasks.modify e (fun k => { k with cancelled := true }) }) ?_ rfl
    intro e' k hk
    show ∃ k3, (s.tasks.modify e _)[e']? = some k3 ∧ _
    rw [List.getElem?_modify, hk]
    by_cases he : e = e'
    · exact ⟨{ k with cancelled := true }, by simp [he], rfl⟩
    · exact ⟨k, by simp [he], rfl⟩
  | abandon e =>
    simp only [step]
    rcases getD_map_cases (s.tasks[e]?) (abandon s e) s with hx | ⟨k, hk, hx⟩ <;> rw [hx]
    · exact h
    · simp only [abandon]
      split
      · exact h.snoc (keeps_set s hk (by rfl) _) rfl (by intros; simp)
      · exact h

theorem whom_run {eqv : Nat → Nat → Bool} (hid : ∀ x y, eqv x y = true → x = y) (as : List Act) {s : St} (hi : Inv s) (h : Whom s) : Whom (run eqv s as) := by
  induction as generalizing s with
  | nil => exact h
  | cons a as ih => exact ih (inv_step hid hi a) (whom_step hi h a)

theorem whom_init : Whom {} := by intro q r e t h; simp at h

/-- What is known of an emission in the history of a new bus. -/
theorem of_run {eqv : Nat → Nat → Bool} (hid : ∀ x y, eqv x y = true → x = y) (as : List Act) {q r : List Ev} {e : Nat} {t : String}
    (hl : (run eqv {} as).log = q ++ .emitted e t :: r) :
    (∀ w ∈ q, about w ≠ some e) ∧ ∃ k, (run eqv {} as).tasks[e]? = some k ∧ k.handlers = subscribers q t ∧ Per (run eqv {} as).log e k := by
  obtain ⟨-, h2, k, h3, h4⟩ := whom_run hid as inv_init whom_init q r e t hl
  exact ⟨h2, k, h3, h4, (inv_run hid as inv_init).per e k h3⟩

theorem mem_tail {q r : List Ev} {e : Nat} {t : String} (hq : ∀ w ∈ q, about w ≠ some e) {w : Ev} (hw : about w = some e) : w ∈ q ++ .emitted e t :: r ↔ w ∈ r := by
  rw [List.mem_append, List.mem_cons]
  constructor
  · rintro (h | h | h)
    · exact absurd hw (hq w h)
    · rw [h] at hw; cases hw
    · exact h
  · exact fun h => Or.inr (Or.inr h)

/-! ### C292 -/

/-- **C292**, which: in every history, the handlers run for an emission are those that were subscribed to its topic and alive when `emit` was called, each at most once per
subscription; none is run before the call or after it has returned or raised. -/
theorem C292_only {eqv : Nat → Nat → Bool} (hid : ∀ x y, eqv x y = true → x = y) (as : List Act) {q r : List Ev} {e : Nat} {t : String}
    (hl : (run eqv {} as).log = q ++ .emitted e t :: r) :
    (∀ i h, .began e i h ∈ (run eqv {} as).log → .began e i h ∈ r ∧ (subscribers q t)[i]? = some h) ∧
    (∀ i, (run eqv {} as).log.countP (isBegan e i) ≤ 1) ∧
    (∀ r1 v r2, r = r1 ++ v :: r2 → v = .returned e ∨ v = .raised e → ∀ w ∈ r2, about w ≠ some e) := by
  obtain ⟨hq, k, hk, hh, hp⟩ := of_run hid as hl
  refine ⟨fun i h hm => ⟨?_, ?_⟩, fun i => ?_, fun r1 v r2 hr hv w hw => ?_⟩
  · rw [hl] at hm; exact (mem_tail hq rfl).1 hm
  · rw [← hh]; exact ((hp.began i h).1 hm).2
  · rw [hp.once]; split <;> omega
  · exact hp.nothing (q ++ .emitted e t :: r1) v r2 (by rw [hl, hr]; simp) hv w hw

/-- **C292**, all: an emission that has returned had, before that, begun and ended every handler subscribed and alive when it was called, whatever was subscribed, unsubscribed, cleared or
emitted meanwhile. -/
theorem C292_all {eqv : Nat → Nat → Bool} (hid : ∀ x y, eqv x y = true → x = y) (as : List Act) {q r1 r2 : List Ev} {e : Nat} {t : String}
    (hl : (run eqv {} as).log = q ++ .emitted e t :: (r1 ++ .returned e :: r2)) {i h : Nat} (hi : (subscribers q t)[i]? = some h) :
    ∃ a b c, r1 = a ++ .began e i h :: (b ++ .ended e i :: c) := by
  obtain ⟨hq, k, hk, hh, hp⟩ := of_run hid as hl
  have hlt : i < k.handlers.length := by rw [hh]; exact (List.getElem?_eq_some_iff.1 hi).1
  have he : .ended e i ∈ q ++ .emitted e t :: r1 := hp.order (q ++ .emitted e t :: r1) r2 (by rw [hl]; simp) i hlt
  obtain ⟨a, c, hac⟩ := List.append_of_mem ((mem_tail hq rfl).1 he)
  obtain ⟨x, hx⟩ := hp.after (q ++ .emitted e t :: a) (c ++ .returned e :: r2) i (by rw [hl, hac]; simp)
  have hxm : .began e i x ∈ (run eqv {} as).log := by
    rw [hl, hac]
    rcases List.mem_append.1 hx with hx | hx
    · exact List.mem_append_left _ hx
    · refine List.mem_append_right _ ?_
      rcases List.mem_cons.1 hx with hx | hx
      · cases hx
      · exact List.mem_cons_of_mem _ (by simp [hx])
  have hxe : x = h := by
    have := ((hp.began i x).1 hxm).2
    rw [hh, hi] at this
    exact (Option.some.inj this).symm
  subst hxe
  obtain ⟨a1, b, hab⟩ := List.append_of_mem ((mem_tail hq rfl).1 hx)
  exact ⟨a1, b, c, by rw [hac, hab]; simp⟩

/-- **C292**, progress: while an emission has neither returned nor raised, each of its handlers that has not begun can begin, each that has begun and not ended can end, and when all
have ended it can return. -/
theorem C292_progress {eqv : Nat → Nat → Bool} (hid : ∀ x y, eqv x y = true → x = y) (as : List Act) {q r : List Ev} {e : Nat} {t : String}
    (hl : (run eqv {} as).log = q ++ .emitted e t :: r) (h1 : .returned e ∉ r) (h2 : .raised e ∉ r) :
    (∀ i h, (subscribers q t)[i]? = some h → .began e i h ∉ r → (run eqv {} (as ++ [.start e i])).log = (run eqv {} as).log ++ [.began e i h]) ∧
    (∀ i h, .began e i h ∈ r → .ended e i ∉ r → (run eqv {} (as ++ [.finish e i])).log = (run eqv {} as).log ++ [.ended e i]) ∧
    ((∀ i h, (subscribers q t)[i]? = some h → .ended e i ∈ r) → (run eqv {} (as ++ [.ret e])).log = (run eqv {} as).log ++ [.returned e]) := by
  obtain ⟨hq, k, hk, hh, hp⟩ := of_run hid as hl
  have hmem : ∀ {w}, about w = some e → (w ∈ (run eqv {} as).log ↔ w ∈ r) := fun hw => by rw [hl]; exact mem_tail hq hw
  have hr : k.running = true := by
    cases hr : k.running with
    | true => rfl
    | false =>
      rcases hp.over.2 hr with h | h
      · exact absurd ((hmem rfl).1 h) h1
      · exact absurd ((hmem rfl).1 h) h2
  refine ⟨fun i h hi hb => ?_, fun i h hb he => ?_, fun hall => ?_⟩
  · have hb' : i ∉ k.begun := fun hm => hb ((hmem rfl).1 ((hp.began i h).2 ⟨hm, by rw [hh]; exact hi⟩))
    rw [run_append]
    simp only [run, List.foldl_cons, List.foldl_nil, step] at *
    rw [hk]
    simp [start, hh, hi, hr, hb']
  · have hb' : i ∈ k.begun := ((hp.began i h).1 ((hmem rfl).2 hb)).1
    have he' : i ∉ k.ended := fun hm => he ((hmem rfl).1 ((hp.ended i).2 hm))
    rw [run_append]
    simp only [run, List.foldl_cons, List.foldl_nil, step] at *
    rw [hk]
    simp [finish, hb', he']
  · have ha : ∀ i < k.handlers.length, i ∈ k.ended := by
      intro i hi
      refine (hp.ended i).1 ((hmem rfl).2 (hall i k.handlers[i] ?_))
      rw [← hh]; exact List.getElem?_eq_getElem hi
    rw [run_append]
    simp only [run, List.foldl_cons, List.foldl_nil, step] at *
    rw [hk]
    have : (k.running && (List.range k.handlers.length).all k.ended.contains) = true := by
      rw [hr]; simp; exact ha
    simp only [Option.map_some, Option.getD_some, ret]
    rw [if_pos this]

/-- **C292**, calls: a call of `emit` none of whose handlers' calls raises begins an emission, and the number of emissions is the number of such calls. -/
theorem C292_emit {eqv : Nat → Nat → Bool} (hid : ∀ x y, eqv x y = true → x = y) (as : List Act) (beh : Nat → Behaviour) (t : String)
    (hb : ∀ h ∈ subscribers (run eqv {} as).log t, beh h = .awaitable) :
    (run eqv {} (as ++ [.emit beh t])).log = (run eqv {} as).log ++ [.emitted (emits (run eqv {} as).log) t] := by
  have hi := inv_run hid as inv_init
  have ho : (EventBus.emit (run eqv {} as).bus beh t).2 = .ran _ := (hi.rel.step eqv hid (.emit beh t)).2 hb
  rw [run_append]
  show (step eqv (run eqv {} as) (.emit beh t)).log = _
  simp only [step]
  rw [ho, hi.count]
  rfl

/-! ### C293 -/

/-- A handler (subscribed at position `i` when the emission `e` of topic `t` was called) waits to be run. -/
def Waits (log : List Ev) (t : String) (h : Nat) : Prop :=
  ∃ q r e i, log = q ++ .emitted e t :: r ∧ (subscribers q t)[i]? = some h ∧ .began e i h ∉ r ∧ .returned e ∉ r ∧ .raised e ∉ r

/-- The handler begins for an emission of the topic. -/
def BeginsFor (log more : List Ev) (t : String) (h : Nat) : Prop := ∃ e i, .began e i h ∈ more ∧ ∃ q r, log ++ more = q ++ .emitted e t :: r

/-- **C293**, what holds exactly: a handler can be run next for an emission of a topic if and only if an emission of that topic, called while the handler was subscribed, has not yet
returned nor run it for that subscription; whether it is subscribed now does not matter. -/
theorem C293_exact_partial {eqv : Nat → Nat → Bool} (hid : ∀ x y, eqv x y = true → x = y) (as : List Act) (t : String) (h : Nat) :
    (∃ a more, (run eqv {} (as ++ [a])).log = (run eqv {} as).log ++ more ∧ BeginsFor (run eqv {} as).log more t h) ↔ Waits (run eqv {} as).log t h := by
  constructor
  · rintro ⟨a, more, hm, e, i, hb, q, r, hl⟩
    rw [← hm] at hl
    obtain ⟨hq, k', hk', hh', hp'⟩ := of_run hid (as ++ [a]) hl
    have hi := inv_run hid as inv_init
    have hlast : more = [.began e i h] ∧ ∃ k, (run eqv {} as).tasks[e]? = some k ∧ k.handlers[i]? = some h ∧ k.running = true ∧ i ∉ k.begun := by
      rw [run_append] at hm
      have hm' : (step eqv (run eqv {} as) a).log = (run eqv {} as).log ++ more := hm
      have hno : (run eqv {} as).log = (run eqv {} as).log ++ more → False := by
        intro hx
        have : more = [] := by simpa using hx
        rw [this] at hb; cases hb
      have hone : ∀ v, (run eqv {} as).log ++ [v] = (run eqv {} as).log ++ more → v = .began e i h := by
        intro v hx
        have : [v] = more := List.append_cancel_left hx
        rw [← this, List.mem_singleton] at hb; exact hb.symm
      cases a with
      | op o =>
        simp only [step] at hm'
        split at hm'
        · cases hone _ hm'
        · exact (hno hm').elim
      | emit beh t' =>
        simp only [step] at hm'
        cases ho : (EventBus.emit (run eqv {} as).bus beh t').2 <;> rw [ho] at hm' <;> cases hone _ hm'
      | start e' i' =>
        simp only [step] at hm'
        rcases getD_map_cases ((run eqv {} as).tasks[e']?) (start (run eqv {} as) e' i') (run eqv {} as) with hx | ⟨k, hk, hx⟩ <;> rw [hx] at hm'
        · exact (hno hm').elim
        · simp only [start] at hm'
          cases hh : k.handlers[i']? with
          | none => rw [hh] at hm'; exact (hno hm').elim
          | some x =>
            rw [hh] at hm'
            simp only at hm'
            split at hm'
            · rename_i hc
              simp at hc
              have := hone _ hm'
              cases this
              exact ⟨(List.append_cancel_left hm').symm, k, hk, hh, hc.1, hc.2⟩
            · exact (hno hm').elim
      | finish e' i' =>
        simp only [step] at hm'
        rcases getD_map_cases ((run eqv {} as).tasks[e']?) (finish (run eqv {} as) e' i') (run eqv {} as) with hx | ⟨k, hk, hx⟩ <;> rw [hx] at hm'
        · exact (hno hm').elim
        · simp only [finish] at hm'
          split at hm'
          · cases hone _ hm'
          · exact (hno hm').elim
      | ret e' =>
        simp only [step] at hm'
        rcases getD_map_cases ((run eqv {} as).tasks[e']?) (ret (run eqv {} as) e') (run eqv {} as) with hx | ⟨k, hk, hx⟩ <;> rw [hx] at hm'
        · exact (hno hm').elim
        · simp only [ret] at hm'
          split at hm'
          · cases hone _ hm'
          · exact (hno hm').elim
      | cancel e' => simp only [step] at hm'; exact (hno hm').elim
      | abandon e' =>
        simp only [step] at hm'
        rcases getD_map_cases ((run eqv {} as).tasks[e']?) (abandon (run eqv {} as) e') (run eqv {} as) with hx | ⟨k, hk, hx⟩ <;> rw [hx] at hm'
        · exact (hno hm').elim
        · simp only [abandon] at hm'
          split at hm'
          · cases hone _ hm'
          · exact (hno hm').elim
    obtain ⟨rfl, k, hk, hki, hr, hnb⟩ := hlast
    rw [hm] at hl
    rcases split_last hl with ⟨-, -, hx⟩ | ⟨r', -, hl'⟩
    · cases hx
    · obtain ⟨hq2, k2, hk2, hh2, hp⟩ := of_run hid as hl'
      rw [hk] at hk2; cases hk2
      refine ⟨q, r', e, i, hl', by rw [← hh2]; exact hki, fun hb' => ?_, fun hx => ?_, fun hx => ?_⟩
      · exact hnb ((hp.began i h).1 (by rw [hl']; exact (mem_tail hq2 rfl).2 hb')).1
      · exact (hp.not_over hr).1 (by rw [hl']; exact (mem_tail hq2 rfl).2 hx)
      · exact (hp.not_over hr).2 (by rw [hl']; exact (mem_tail hq2 rfl).2 hx)
  · rintro ⟨q, r, e, i, hl, hs, hb, h1, h2⟩
    refine ⟨.start e i, [.began e i h], (C292_progress hid as hl h1 h2).1 i h hs hb, e, i, by simp, q, r ++ [.began e i h], ?_⟩
    rw [hl]; simp

def byId (x y : Nat) : Bool := x == y

def good (_ : Nat) : Behaviour := .awaitable

def hist : List Act := [.op (.subscribe "a" 1), .op (.subscribe "a" 2), .emit good "a", .start 0 1, .op (.unsubscribe "a" 1)]

/-- **C293** fails: 1 and 2 subscribe, `emit` is called, 2 is run first and unsubscribes 1; then 1 is run, though nothing is subscribed under 1 any more. -/
theorem C293_violation :
    subscribers (run byId {} hist).log "a" = [2] ∧ (run byId {} (hist ++ [.start 0 0])).log = (run byId {} hist).log ++ [.began 0 0 1] := ⟨by decide, rfl⟩

/-- The hypotheses are met: the emission of that history goes on, and returns after both handlers have ended. -/
example : (run byId {} hist).log = [.op (.subscribe "a" 1), .op (.subscribe "a" 2)] ++ .emitted 0 "a" :: [.began 0 1 2, .op (.unsubscribe "a" 1)] ∧
    subscribers [.op (.subscribe "a" 1), .op (.subscribe "a" 2)] "a" = [1, 2] := ⟨rfl, by decide⟩

example : (run byId {} (hist ++ [.op (.subscribe "a" 3), .ret 0, .finish 0 1, .emit good "a", .start 0 0, .start 0 0, .start 1 1, .finish 0 0, .ret 0])).log =
    [.op (.subscribe "a" 1), .op (.subscribe "a" 2)] ++ .emitted 0 "a" ::
      ([.began 0 1 2, .op (.unsubscribe "a" 1), .op (.subscribe "a" 3), .ended 0 1, .emitted 1 "a", .began 0 0 1, .began 1 1 3, .ended 0 0] ++ .returned 0 :: []) := rfl

example : ∀ x y, byId x y = true → x = y := fun x y h => by simpa [byId] using h

/-- A cancelled emission runs no further handler. -/
example : (run byId {} (hist ++ [.cancel 0, .abandon 0, .finish 0 1, .abandon 0, .start 0 0])).log =
    [.op (.subscribe "a" 1), .op (.subscribe "a" 2), .emitted 0 "a", .began 0 1 2, .op (.unsubscribe "a" 1), .ended 0 1, .raised 0] := rfl

end Verif.EventBusConc
