import Verif.Lemmas.Flow
import Verif.Model.Executor

/-! # Helper lemmas for the `Executor` properties: what the flow operations do to the status lists -/

set_option linter.unusedSectionVars false
set_option linter.unusedSimpArgs false
set_option linter.unusedVariables false

namespace Verif.Executor

open Verif.Event (Status)

variable {γ : Type} [DecidableEq γ]

/-- The ids listed under a status (`flow.get_progression(status)`). -/
def listed (f : EFlow γ) (st : Status) : List Nat :=
  match Flow.getProgression f (key st) with
  | .ok p => p.data.order
  | .error _ => []

/-- The progression object of a status. -/
def progOf (pid : Status → Nat) (st : Status) (o : List Nat) : Flow.Prog Nat :=
  { id := pid st, cls := (), data := { name := some (value st), order := o } }

structure EGood (pid : Status → Nat) (f : EFlow γ) : Prop where
  good : Flow.Good f
  inj : ∀ a b, pid a = pid b → a = b
  order : f.progs.order = Status.all.map pid
  at_ : ∀ st, ∃ o, f.progs.items.get? (pid st) = some (progOf pid st o)

theorem value_ne (st : Status) : value st ≠ "" := by cases st <;> decide

theorem value_inj {a b : Status} (h : value a = value b) : a = b := by
  cases a <;> cases b <;> first | rfl | (exact absurd h (by decide))

theorem truthy_value (st : Status) : Flow.truthy (some (value st)) = some (value st) :=
  (Flow.truthy_eq_some_iff _ _).2 ⟨rfl, value_ne st⟩

theorem getProg_of {pid : Status → Nat} {f : EFlow γ} (h : EGood pid f) {st : Status} {o : List Nat}
    (ho : f.progs.items.get? (pid st) = some (progOf pid st o)) : Flow.getProgression f (key st) = .ok (progOf pid st o) := by
  have hn : f.names.get? (value st) = some (pid st) := (h.good.names _ _).2 ⟨_, ho, truthy_value st⟩
  simp only [Flow.getProgression, key, hn, ho]

theorem listed_of {pid : Status → Nat} {f : EFlow γ} (h : EGood pid f) {st : Status} {o : List Nat}
    (ho : f.progs.items.get? (pid st) = some (progOf pid st o)) : listed f st = o := by
  simp only [listed, getProg_of h ho, progOf]

theorem getProg_ok {pid : Status → Nat} {f : EFlow γ} (h : EGood pid f) (st : Status) :
    Flow.getProgression f (key st) = .ok (progOf pid st (listed f st)) := by
  obtain ⟨o, ho⟩ := h.at_ st
  rw [listed_of h ho, getProg_of h ho]

theorem at_listed {pid : Status → Nat} {f : EFlow γ} (h : EGood pid f) (st : Status) :
    f.progs.items.get? (pid st) = some (progOf pid st (listed f st)) := by
  obtain ⟨o, ho⟩ := h.at_ st
  rw [listed_of h ho, ho]

theorem mem_progs {pid : Status → Nat} {f : EFlow γ} (h : EGood pid f) {u : Nat} {p : Flow.Prog Nat}
    (hp : f.progs.items.get? u = some p) : ∃ st, u = pid st := by
  have : u ∈ f.progs.order := (h.good.piles.progs.mem_iff u).2 (Dict.mem_keys_of_get? hp)
  rw [h.order, List.mem_map] at this
  obtain ⟨st, _, e⟩ := this
  exact ⟨st, e.symm⟩

/-- Any change of the flow that only edits the orders. -/
theorem EGood.edit {pid : Status → Nat} {f f' : EFlow γ} (h : EGood pid f) (hi : Pile.Inv f'.items) (hp : Pile.Inv f'.progs)
    (hn : f'.names = f.names) (ho : f'.progs.order = f.progs.order) (g : Nat → List Nat → List Nat)
    (hg : ∀ v, f'.progs.items.get? v = (f.progs.items.get? v).map (Flow.upd (g v))) :
    EGood pid f' ∧ ∀ st, listed f' st = g (pid st) (listed f st) := by
  have hat : ∀ st, f'.progs.items.get? (pid st) = some (progOf pid st (g (pid st) (listed f st))) := by
    intro st
    rw [hg, at_listed h st]; rfl
  have hgood : EGood pid f' := by
    refine ⟨⟨⟨hi, hp⟩, by rw [hn]; exact h.good.namesWF, ?_⟩, h.inj, by rw [ho, h.order], fun st => ⟨_, hat st⟩⟩
    refine Flow.namesOK_of_same_names h.good.names hn ?_
    intro v
    rw [hg v, Option.map_map]
    cases f.progs.items.get? v <;> rfl
  exact ⟨hgood, fun st => listed_of hgood (hat st)⟩

theorem dropFrom_eq (uid : Nat) (l : List Nat) : Flow.dropFrom uid l = l.erase uid := by
  unfold Flow.dropFrom
  split
  · rfl
  · next h => rw [List.erase_of_not_mem h]

theorem update_spec {pid : Status → Nat} {f : EFlow γ} (h : EGood pid f) (id : Nat) (st : Status) :
    ∃ f', updateProgression f id st = (f', .ok ()) ∧ EGood pid f' ∧ f'.items = f.items ∧
      ∀ s, listed f' s = (listed f s).erase id ++ (if s = st then [id] else []) := by
  obtain ⟨qq, h1, h2, h3, h4⟩ := Flow.dropAll_spec h.good.piles id
  obtain ⟨hg, hl⟩ := EGood.edit (f' := { f with progs := qq }) h h.good.piles.items h2 rfl h3 (fun _ => Flow.dropFrom id) h4
  have hp := getProg_ok hg st
  obtain ⟨hg', hl'⟩ := EGood.edit (f' := { f with progs := Flow.modify qq (pid st) (· ++ [id]) }) hg h.good.piles.items
    (Flow.modify_inv h2 (pid st) (· ++ [id])) rfl (Flow.modify_order _ _ _) (fun v o => if pid st = v then o ++ [id] else o) (by
      intro v
      show (Flow.modify qq (pid st) (· ++ [id])).items.get? v = (qq.items.get? v).map _
      rw [Flow.modify_get?]
      split
      · next e => rfl
      · cases qq.items.get? v <;> rfl)
  refine ⟨_, ?_, hg', rfl, ?_⟩
  · unfold updateProgression
    rw [h1]
    simp only [hp]
    rfl
  · intro s
    rw [hl', hl, dropFrom_eq]
    by_cases e : s = st
    · subst e; simp
    · rw [if_neg (fun e' => e (h.inj _ _ e'.symm)), if_neg e, List.append_nil]

theorem addEvent_cases {pid : Status → Nat} {f : EFlow γ} (h : EGood pid f) (sub : γ → γ → Bool) (ev : Ev γ) :
    (∃ e, addEvent sub f ev = (f, .error e)) ∨
    (ev.id ∉ f.items.items.keys ∧ ∃ f', addEvent sub f ev = (f', .ok ()) ∧ EGood pid f' ∧
      f'.items = { f.items with items := f.items.items.set ev.id ev, order := f.items.order ++ [ev.id] } ∧
      ∀ s, listed f' s = listed f s ++ (if s = .pending then [ev.id] else [])) := by
  unfold addEvent Flow.addItem
  rcases Pile.add_cases sub f.items (some ev) with ⟨e, he⟩ | ⟨x, hx, hk, he⟩
  · rw [he]; exact Or.inl ⟨e, rfl⟩
  · cases hx
    rw [he]
    refine Or.inr ⟨hk, ?_⟩
    have hi := (Pile.abs_add h.good.piles.items ev hk).1
    obtain ⟨hg, hl⟩ := EGood.edit (f' := { f with items := { f.items with
        items := f.items.items.set ev.id ev, order := f.items.order ++ [ev.id] } }) h hi h.good.piles.progs rfl rfl
      (fun _ o => o) (by intro v; show f.progs.items.get? v = _; cases f.progs.items.get? v <;> rfl)
    have hp := getProg_ok hg .pending
    obtain ⟨hg', hl'⟩ := EGood.edit (f' := { f with
        items := { f.items with items := f.items.items.set ev.id ev, order := f.items.order ++ [ev.id] }
        progs := Flow.modify f.progs (pid .pending) (· ++ [ev.id]) }) hg hi
      (Flow.modify_inv h.good.piles.progs (pid .pending) (· ++ [ev.id])) rfl (Flow.modify_order _ _ _)
      (fun v o => if pid .pending = v then o ++ [ev.id] else o) (by
        intro v
        show (Flow.modify f.progs (pid .pending) (· ++ [ev.id])).items.get? v = (f.progs.items.get? v).map _
        rw [Flow.modify_get?]
        split
        · next e => rfl
        · cases f.progs.items.get? v <;> rfl)
    refine ⟨_, ?_, hg', rfl, ?_⟩
    · simp only [Flow.appendAll, hp]
      rfl
    · intro s
      rw [hl', hl]
      by_cases e : s = .pending
      · subst e; simp
      · rw [if_neg (fun e' => e (h.inj _ _ e'.symm)), if_neg e, List.append_nil]

theorem remove_spec {pid : Status → Nat} {f : EFlow γ} (h : EGood pid f) {id : Nat} {x : Ev γ}
    (hx : f.items.items.get? id = some x) :
    ∃ f', Flow.removeItem f (some id) = (f', .ok x) ∧ EGood pid f' ∧
      f'.items = { f.items with items := f.items.items.del id, order := f.items.order.erase id } ∧
      ∀ s, listed f' s = (listed f s).erase id := by
  obtain ⟨qq, h1, h2, h3, h4⟩ := Flow.removeItem_eq h.good.piles id
  rw [Pile.remove_ok h.good.piles.items hx] at h4
  obtain ⟨hg, hl⟩ := EGood.edit (f' := { f with
      progs := qq
      items := { f.items with items := f.items.items.del id, order := f.items.order.erase id } }) h
    (Pile.abs_del h.good.piles.items id).1 h1 rfl h2 (fun _ => Flow.dropFrom id) h3
  exact ⟨_, h4, hg, rfl, fun s => by rw [hl, dropFrom_eq]⟩

/-! ### A new executor -/

theorem mem_all (st : Status) : st ∈ Status.all := by cases st <;> decide

theorem all_nodup : Status.all.Nodup := by decide

/-- The state in the middle of `__init__`. -/
structure Mid (pid : Status → Nat) (done : List Status) (f : EFlow γ) : Prop where
  good : Flow.Good f
  untyped : f.progs.itemType = none
  order : f.progs.order = done.map pid
  at_ : ∀ st ∈ done, f.progs.items.get? (pid st) = some (progOf pid st [])
  only : ∀ u p, f.progs.items.get? u = some p → ∃ st ∈ done, u = pid st

theorem addProgression_fresh {f : EFlow γ} {p : Flow.Prog Nat} (hu : f.progs.itemType = none) (hk : p.id ∉ f.progs.items.keys)
    (hn : Flow.nameTaken f.names p = false) (ho : p.data.order = []) :
    Flow.addProgression f p =
      ({ f with
         progs := { f.progs with items := f.progs.items.set p.id p, order := f.progs.order ++ [p.id] }
         names := Flow.register f.names p }, .ok ()) := by
  have hm : Flow.missing f.items p.data.order = false := by rw [ho]; rfl
  have hv : Pile.validType Flow.anySub f.progs.itemType f.progs.strict p = true := by rw [hu]; rfl
  unfold Flow.addProgression
  rw [if_neg (by rw [hn]; simp), if_neg (by rw [hm]; simp)]
  simp only [Pile.add, hv, (Dict.has_eq_false_iff _ _).2 hk]
  rfl

theorem Mid.add {pid : Status → Nat} (inj : ∀ a b, pid a = pid b → a = b) {done : List Status} {f : EFlow γ} {st : Status}
    (hst : st ∉ done) (h : Mid pid done f) :
    Mid pid (done ++ [st]) (Flow.addProgression f (statusProg pid st)).1 ∧
      (Flow.addProgression f (statusProg pid st)).1.items = f.items := by
  have hk : pid st ∉ f.progs.items.keys := by
    intro hm
    obtain ⟨p, hp⟩ := Option.isSome_iff_exists.1 ((Dict.get?_isSome_iff _ _).2 hm)
    obtain ⟨s, hs, e⟩ := h.only _ _ hp
    rw [inj _ _ e] at hst; exact hst hs
  have hfree : f.names.get? (value st) = none := by
    cases hc : f.names.get? (value st) with
    | none => rfl
    | some u =>
      obtain ⟨p, hp, hpn⟩ := (h.good.names _ _).1 hc
      obtain ⟨s, hs, e⟩ := h.only _ _ hp
      subst e
      rw [h.at_ s hs] at hp
      cases hp
      rw [progOf, truthy_value] at hpn
      have := value_inj (Option.some.inj hpn)
      subst this
      exact absurd hs hst
  have hnt : Flow.nameTaken f.names (statusProg pid st) = false := by
    simp only [Flow.nameTaken, statusProg, truthy_value]
    rw [Dict.has_eq_false_iff, ← Dict.get?_eq_none_iff]; exact hfree
  have hadd := addProgression_fresh (p := statusProg pid st) h.untyped hk hnt rfl
  have hgood : Flow.Good (Flow.addProgression f (statusProg pid st)).1 :=
    ⟨h.good.piles.addProgression _, Flow.addProgression_names_wf h.good.namesWF _, Flow.NamesOK.addProgression h.good.names _⟩
  refine ⟨⟨hgood, ?_, ?_, ?_, ?_⟩, by rw [hadd]⟩
  · rw [hadd]; exact h.untyped
  · rw [hadd]
    show f.progs.order ++ [pid st] = _
    rw [h.order, List.map_append]; rfl
  · intro s hs
    rw [hadd]
    show (f.progs.items.set (pid st) (statusProg pid st)).get? (pid s) = _
    rw [Dict.get?_set]
    by_cases e : pid st = pid s
    · rw [if_pos e]
      have := inj _ _ e
      subst this; rfl
    · rw [if_neg e]
      rw [List.mem_append, List.mem_singleton] at hs
      rcases hs with hs | hs
      · exact h.at_ s hs
      · subst hs; exact absurd rfl e
  · intro u p
    rw [hadd]
    show (f.progs.items.set (pid st) (statusProg pid st)).get? u = _ → _
    rw [Dict.get?_set]
    split
    · next e => intro _; exact ⟨st, by simp, e.symm⟩
    · intro hp
      obtain ⟨s, hs, e⟩ := h.only u p hp
      exact ⟨s, by simp [hs], e⟩

theorem addStatuses_mid {pid : Status → Nat} (inj : ∀ a b, pid a = pid b → a = b) (sts : List Status) :
    ∀ (done : List Status) (f : EFlow γ), (done ++ sts).Nodup → Mid pid done f → Mid pid (done ++ sts) (addStatuses pid f sts) ∧
      (addStatuses pid f sts).items = f.items := by
  induction sts with
  | nil => intro done f _ h; rw [List.append_nil]; exact ⟨h, rfl⟩
  | cons st sts ih =>
    intro done f hnd h
    have hst : st ∉ done := by
      rw [List.nodup_append] at hnd
      intro hm
      exact hnd.2.2 st hm st (by simp) rfl
    obtain ⟨h1, h2⟩ := h.add inj hst
    have := ih (done ++ [st]) _ (by rw [List.append_assoc]; exact hnd) h1
    rw [List.append_assoc] at this
    exact ⟨this.1, by rw [← h2]; exact this.2⟩

theorem init_good {pid : Status → Nat} (inj : ∀ a b, pid a = pid b → a = b) (cls : List γ) (strict : Bool) :
    EGood pid (initFlow pid cls strict) ∧ (initFlow pid cls strict).items = { itemType := some cls, strict := strict } ∧
      ∀ st, listed (initFlow pid cls strict) st = [] := by
  have h0 : Mid pid [] ({ items := { itemType := some cls, strict := strict } } : EFlow γ) := by
    refine ⟨⟨⟨Pile.inv_empty _ _ _, Pile.inv_empty _ _ _⟩, List.nodup_nil, ?_⟩, rfl, rfl, by simp, ?_⟩
    · intro n u
      constructor
      · intro h; cases h
      · rintro ⟨p, h, _⟩; cases h
    · intro u p h; cases h
  have h3 := addStatuses_mid inj Status.all [] _ (by rw [List.nil_append]; exact all_nodup) h0
  rw [List.nil_append] at h3
  obtain ⟨h1, h2⟩ := h3
  unfold initFlow
  have hg : EGood pid (addStatuses pid ({ items := { itemType := some cls, strict := strict } } : EFlow γ) Status.all) :=
    ⟨h1.good, inj, h1.order, fun st => ⟨[], h1.at_ st (mem_all st)⟩⟩
  exact ⟨hg, h2, fun st => listed_of hg (h1.at_ st (mem_all st))⟩

end Verif.Executor
