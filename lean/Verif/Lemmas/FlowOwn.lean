import Verif.Lemmas.SyncOwn
import Verif.Lemmas.Flow
import Verif.Model.FlowSync

/-! # What the locks of a flow protect

Lock 0 protects the name index and which progressions the flow has, under which names; not what the progressions list. Lock 1 protects the items. -/

set_option linter.unusedSectionVars false
set_option linter.unusedVariables false
set_option linter.unusedSimpArgs false

namespace Verif.FlowSync

open Verif.Sync Verif.PileSync

variable {ι γ δ : Type} [DecidableEq ι] [DecidableEq γ]

/-- What the flow's lock protects. -/
structure View (ι : Type) where
  names : Dict String ι
  order : List ι
  keys : List ι
  tag : ι → Option (ι × Option String)

def tagOf (p : Flow.Prog ι) : ι × Option String := (p.id, p.data.name)

def view (f : Flow ι γ δ) : View ι := ⟨f.names, f.progs.order, f.progs.items.keys, fun u => (f.progs.items.get? u).map tagOf⟩

/-- Same view. -/
def SameView (f g : Flow ι γ δ) : Prop := view g = view f

theorem closed_view (B : View ι → Prop) : Closed (SameView (ι := ι) (γ := γ) (δ := δ)) (fun f => B (view f)) := by
  intro f g h e
  simp only [SameView] at e
  show B (view g)
  rw [e]; exact h

/-- The index and the pile agree, except that the order lacks `lack` and has `over` too many, and the name of `un` is not in the index. -/
structure St (lack over un : Option ι) (v : View ι) : Prop where
  keysNodup : v.keys.Nodup
  namesWF : v.names.WF
  orderNodup : v.order.Nodup
  mem : ∀ u, u ∈ v.order ↔ (u ∈ v.keys ∧ lack ≠ some u) ∨ over = some u
  tags : ∀ u, u ∈ v.keys ↔ (v.tag u).isSome = true
  ids : ∀ u i m, v.tag u = some (i, m) → i = u
  names : ∀ n u, v.names.get? n = some u ↔ un ≠ some u ∧ ∃ i m, v.tag u = some (i, m) ∧ Flow.truthy m = some n

def Full : View ι → Prop := St none none none

def AllIn (f : Flow ι γ δ) : Prop := Full (view f)

theorem closed_allIn : Closed (SameView (ι := ι) (γ := γ) (δ := δ)) AllIn := closed_view Full

theorem allIn_iff {f : Flow ι γ δ} : AllIn f ↔ Pile.Inv f.progs ∧ f.names.WF ∧ Flow.NamesOK f := by
  constructor
  · intro h
    refine ⟨⟨h.keysNodup, h.orderNodup, fun u => ?_, fun u x hx => ?_⟩, h.namesWF, fun n u => ?_⟩
    · exact (h.mem u).trans (by simp [view])
    · exact h.ids u x.id x.data.name (by simp [view, hx, tagOf])
    · refine (h.names n u).trans ?_
      simp only [view, ne_eq, reduceCtorEq, not_false_eq_true, true_and, Option.map_eq_some_iff, tagOf, Prod.mk.injEq]
      constructor
      · rintro ⟨i, m, ⟨p, h1, h2, h3⟩, h4⟩; exact ⟨p, h1, by rw [h3]; exact h4⟩
      · rintro ⟨p, h1, h2⟩; exact ⟨p.id, p.data.name, ⟨p, h1, rfl, rfl⟩, h2⟩
  · rintro ⟨h1, h2, h3⟩
    refine ⟨h1.wf, h2, h1.nodup, fun u => ?_, fun u => ?_, fun u i m h => ?_, fun n u => ?_⟩
    · exact (h1.mem_iff u).trans (by simp [view])
    · simp only [view, Option.isSome_map, Dict.get?_isSome_iff]
    · simp only [view, Option.map_eq_some_iff, tagOf, Prod.mk.injEq] at h
      obtain ⟨p, h4, h5, h6⟩ := h
      rw [← h5]; exact h1.ids u p h4
    · refine (h3 n u).trans ?_
      simp only [view, ne_eq, reduceCtorEq, not_false_eq_true, true_and, Option.map_eq_some_iff, tagOf, Prod.mk.injEq]
      constructor
      · rintro ⟨p, h1, h2⟩; exact ⟨p.id, p.data.name, ⟨p, h1, rfl, rfl⟩, h2⟩
      · rintro ⟨i, m, ⟨p, h1, h2, h3⟩, h4⟩; exact ⟨p, h1, by rw [h3]; exact h4⟩

theorem sameView_modify (f : Flow ι γ δ) (u : ι) (g : List ι → List ι) : SameView f { f with progs := Flow.modify f.progs u g } := by
  simp only [SameView, view, View.mk.injEq, true_and]
  refine ⟨Flow.modify_order _ _ _, ?_, ?_⟩
  · simp only [Flow.modify]
    split
    · rfl
    · next p hp => exact Dict.keys_set_of_mem _ (Dict.mem_keys_of_get? hp)
  · funext v
    rw [Flow.modify_get?]
    split
    · cases f.progs.items.get? v <;> rfl
    · rfl

abbrev Own0 {α : Type} (Q : α → Flow ι γ δ → Prop) (e n : Nat) (A : Flow ι γ δ → Prop) (p : Prog (Flow ι γ δ) α) : Prop :=
  Own 0 SameView AllIn Q e n A p

/-! ## Methods without the lock -/

theorem appendTo_own (x u : ι) (A : Flow ι γ δ → Prop) : Own0 anyPost 0 0 A (act (appendTo x u)) := Own.act0 (fun f => sameView_modify f u _)

theorem getProg_own (k : Flow.FKey ι) (A : Flow ι γ δ → Prop) : Own0 anyPost 0 0 A (withLock 0 (act (getProg k))) :=
  Own.locked (Own.act1 (Q := fun _ s => AllIn s) (fun _ => closed_allIn) (fun s hs => hs))

theorem appendAll_own (x : ι) : ∀ as : List (Flow.ProgArg ι), Own0 (γ := γ) (δ := δ) anyPost 0 0 (fun _ => True) (appendAll x as)
  | [] => Own.ret0
  | .foreign :: as => appendAll_own x as
  | .member u :: as => Own.andThen0 (appendTo_own x u _) (fun _ => appendAll_own x as)
  | .key k :: as => Own.andThen0 (getProg_own k _) (fun p => Own.andThen0 (appendTo_own x p.id _) (fun _ => appendAll_own x as))

theorem items_act_own {β : Type} (g : Pile ι γ δ → Pile ι γ δ × β) (A : Flow ι γ δ → Prop) : Own0 anyPost 0 0 A (itemsL.act g) :=
  Own.act0 (fun f => rfl)

theorem addItem_own (sub : γ → γ → Bool) (a : Pile.Arg ι γ δ) (ps : List (Flow.ProgArg ι)) : Own0 anyPost 0 0 (fun _ => True) (addItem sub a ps) := by
  refine Own.andThen0 (Own.otherLock (by decide) (Own.andThen0 (items_act_own _ _) (fun x => Own.andThen0 (items_act_own _ _) (fun _ => items_act_own _ _)))) (fun _ => ?_)
  cases a with
  | none => exact Own.ret0
  | some x => exact appendAll_own x.id ps

theorem removeFrom_view (uid u : ι) (f : Flow ι γ δ) : SameView f (removeFrom uid u f).1 := by
  simp only [removeFrom]
  split
  · rfl
  · split
    · exact sameView_modify f u _
    · rfl

theorem dropLoop_own (uid : ι) : ∀ (fuel k : Nat), Own0 (γ := γ) (δ := δ) anyPost 0 0 (fun _ => True) (dropLoop uid fuel k)
  | 0, _ => Own.ret0
  | fuel + 1, k => by
    refine Own.bind (Q' := anyPost) (fun r => ?_) _ 0 _ (Own.act0 (fun f => rfl))
    cases r with
    | none => exact Own.ret0
    | some u =>
      refine Own.weaken _ _ _ (fun _ => True) (fun _ _ => trivial) ?_
      refine Own.andThen0 (Own.act0 (fun f => ?_)) (fun _ => Own.andThen0 (Own.act0 (fun f => ?_)) (fun b => Own.andThen0 ?_ (fun _ => dropLoop_own uid fuel (k + 1))))
      · simp only [yieldProg]; split <;> rfl
      · simp only [listedIn]; split <;> rfl
      · cases b with
        | true => exact Own.act0 (fun f => removeFrom_view uid u f)
        | false => exact Own.ret0

theorem removeItem_own (fuel : Nat) (r : Ref ι) : Own0 (γ := γ) (δ := δ) anyPost 0 0 (fun _ => True) (removeItem fuel r) := by
  cases r with
  | none => exact Own.ret0
  | some uid =>
    exact Own.andThen0 (dropLoop_own uid fuel 0) (fun _ => Own.otherLock (by decide) (Own.andThen0 (items_act_own _ _) (fun _ => items_act_own _ _)))

/-! ## Methods with the lock -/

/-- `act` on a flow under the lock, described on the view. -/
theorem own_act {β : Type} {g : Flow ι γ δ → Res (Flow ι γ δ) β} {B : View ι → Prop} {C : β → View ι → Prop}
    (h : ∀ f, B (view f) → okOr Full C (g f).2 (view (g f).1)) : Own0 (okOr AllIn (fun b f => C b (view f))) 1 1 (fun f => B (view f)) (act g) := by
  refine Own.act1 (okOr_closed closed_allIn (fun b => closed_view (C b))) (fun f hf => ?_)
  have := h f hf
  cases hg : (g f).2 with
  | ok b => rw [hg] at this; exact this
  | error e => rw [hg] at this; exact this

theorem nameTaken_false {d : Dict String ι} {p : Flow.Prog ι} (h : Flow.nameTaken d p = false) {n : String} (hn : Flow.truthy p.data.name = some n) : d.get? n = none := by
  simp only [Flow.nameTaken, hn] at h
  exact (Dict.get?_eq_none_iff _ _).2 ((Dict.has_eq_false_iff _ _).1 h)

def Free (p : Flow.Prog ι) (v : View ι) : Prop := Full v ∧ Flow.nameTaken v.names p = false

def Put (lack : Option ι) (p : Flow.Prog ι) (v : View ι) : Prop := St lack none (some p.id) v ∧ v.tag p.id = some (tagOf p) ∧ Flow.nameTaken v.names p = false

theorem addCheck_cases (sub : γ → γ → Bool) (x : Item ι γ δ) (p : Pile ι γ δ) :
    (∃ e, addCheck sub (some x) p = (p, .error e)) ∨ (addCheck sub (some x) p = (p, .ok x) ∧ x.id ∉ p.items.keys) := by
  simp only [addCheck]
  split
  · exact Or.inl ⟨_, rfl⟩
  · split
    · exact Or.inl ⟨_, rfl⟩
    · next h => exact Or.inr ⟨rfl, by simpa using h⟩

theorem addProgression_own (p : Flow.Prog ι) : Own0 (γ := γ) (δ := δ) (okOr AllIn (fun _ f => AllIn f)) 1 1 AllIn (addProgression p) := by
  refine Own.andThen1 (Qm := fun _ f => Free p (view f)) (own_act (B := Full) (C := fun _ => Free p) (fun f hf => ?_)) (fun _ => ?_)
  · simp only [nameCheck]
    cases h : Flow.nameTaken f.names p with
    | true => exact hf
    | false => exact ⟨hf, h⟩
  refine Own.andThen1 (Qm := fun _ f => Free p (view f)) (own_act (B := Free p) (C := fun _ => Free p) (fun f hf => ?_)) (fun _ => ?_)
  · simp only [missingCheck]
    split
    · exact hf.1
    · exact hf
  refine Own.andThen1 (Qm := fun _ f => Put none p (view f)) (Own.otherLock (by decide) ?_) (fun _ => ?_)
  · refine Own.andThen1 (Qm := fun x f => (x = p ∧ p.id ∉ (view f).keys) ∧ Free p (view f)) (own_act (B := Free p) (C := fun x v => (x = p ∧ p.id ∉ v.keys) ∧ Free p v) (fun f hf => ?_)) (fun x => ?_)
    · simp only [Part.lift]
      rcases addCheck_cases Flow.anySub p (progsL.get f) with ⟨e, he⟩ | ⟨he, hk⟩
      · rw [he]; exact hf.1
      · rw [he]; exact ⟨⟨rfl, hk⟩, hf⟩
    refine Own.andThen1 (Qm := fun _ f => x = p ∧ Put (some p.id) p (view f)) (own_act (B := fun v => (x = p ∧ p.id ∉ v.keys) ∧ Free p v) (C := fun _ v => x = p ∧ Put (some p.id) p v) (fun f hf => ?_)) (fun _ => ?_)
    · obtain ⟨⟨rfl, hk⟩, hF, hN⟩ := hf
      refine ⟨rfl, ⟨?_, hF.namesWF, hF.orderNodup, fun u => ?_, fun u => ?_, fun u i m h => ?_, fun n u => ?_⟩, ?_, hN⟩
      · exact Dict.set_wf (d := f.progs.items) hF.keysNodup _ _
      · rw [show u ∈ (view ((progsL (γ := γ) (δ := δ)).lift (putItem x) f).1).order ↔ u ∈ (view f).order from Iff.rfl, hF.mem u]
        simp only [view, progsL, Part.lift, putItem, Dict.mem_keys_set]
        simp only [view] at hk
        constructor
        · rintro (⟨h, _⟩ | h)
          · exact Or.inl ⟨Or.inr h, by rintro h2; cases h2; exact hk h⟩
          · cases h
        · rintro (⟨h | h, h2⟩ | h)
          · subst h; exact absurd rfl h2
          · exact Or.inl ⟨h, by simp⟩
          · cases h
      · simp only [view, progsL, Part.lift, putItem, Option.isSome_map, Dict.get?_isSome_iff]
      · simp only [view, progsL, Part.lift, putItem, Dict.get?_set] at h
        split at h
        · next e => simp only [Option.map_some, Option.some.injEq, tagOf, Prod.mk.injEq] at h; rw [← h.1]; exact e
        · exact hF.ids u i m h
      · refine (hF.names n u).trans ?_
        simp only [view, progsL, Part.lift, putItem, Dict.get?_set]
        constructor
        · rintro ⟨-, i, m, h1, h2⟩
          have : x.id ≠ u := by
            rintro rfl
            exact hk ((hF.tags _).2 (by rw [show (view f).tag x.id = some (i, m) from h1]; rfl))
          exact ⟨fun h => this (Option.some.inj h), i, m, by rw [if_neg this]; exact h1, h2⟩
        · rintro ⟨h0, i, m, h1, h2⟩
          rw [if_neg (fun e => h0 (by rw [e]))] at h1
          exact ⟨by simp, i, m, h1, h2⟩
      · simp only [view, progsL, Part.lift, putItem, Dict.get?_set, if_true, Option.map_some]
    · refine own_act (B := fun v => x = p ∧ Put (some p.id) p v) (C := fun _ => Put none p) (fun f hf => ?_)
      obtain ⟨rfl, hF, hT, hN⟩ := hf
      have hni : x.id ∉ f.progs.order := fun h => by
        rcases (hF.mem x.id).1 h with h | h
        · exact h.2 rfl
        · cases h
      refine ⟨⟨hF.keysNodup, hF.namesWF, ?_, fun u => ?_, hF.tags, hF.ids, hF.names⟩, hT, hN⟩
      · show (f.progs.order ++ [x.id]).Nodup
        exact List.nodup_append.2 ⟨hF.orderNodup, by simp, fun a ha b hb => by simp at hb; subst hb; rintro rfl; exact hni ha⟩
      · show u ∈ f.progs.order ++ [x.id] ↔ (u ∈ f.progs.items.keys ∧ _) ∨ _
        have h1 := hF.mem u
        have h2 := (hF.tags x.id).2 (by rw [hT]; rfl)
        simp only [view] at h1 h2
        rw [List.mem_append, h1]
        simp only [List.mem_singleton]
        constructor
        · rintro ((⟨h, _⟩ | h) | h)
          · exact Or.inl ⟨h, by simp⟩
          · cases h
          · subst h; exact Or.inl ⟨h2, by simp⟩
        · rintro (⟨h, _⟩ | h)
          · by_cases e : u = x.id
            · exact Or.inr e
            · exact Or.inl (Or.inl ⟨h, fun h => e (Option.some.inj h).symm⟩)
          · cases h
  · refine own_act (B := Put none p) (C := fun _ => Full) (fun f hf => ?_)
    obtain ⟨hF, hT, hN⟩ := hf
    refine ⟨hF.keysNodup, Flow.register_wf hF.namesWF p, hF.orderNodup, hF.mem, hF.tags, hF.ids, fun n u => ?_⟩
    show (Flow.register f.names p).get? n = some u ↔ _
    have h1 := hF.names n u
    simp only [registerName, view] at h1 hT hN ⊢
    simp only [Flow.register]
    cases ht : Flow.truthy p.data.name with
    | none =>
      simp only
      rw [h1]
      constructor
      · rintro ⟨-, h⟩; exact ⟨by simp, h⟩
      · rintro ⟨-, i, m, h2, h3⟩
        refine ⟨?_, i, m, h2, h3⟩
        intro e; cases e
        rw [hT] at h2
        simp only [tagOf, Option.some.injEq, Prod.mk.injEq] at h2
        rw [← h2.2, ht] at h3; cases h3
    | some k =>
      simp only [Dict.get?_set]
      have hk := nameTaken_false hN ht
      constructor
      · intro h
        split at h
        · next e => subst e; cases h; exact ⟨by simp, p.id, p.data.name, hT, ht⟩
        · exact ⟨by simp, (h1.1 h).2⟩
      · rintro ⟨-, i, m, h2, h3⟩
        by_cases e : p.id = u
        · subst e
          rw [hT] at h2
          simp only [tagOf, Option.some.injEq, Prod.mk.injEq] at h2
          rw [← h2.2, ht] at h3; cases h3; simp
        · have h4 := h1.2 ⟨fun h => e (Option.some.inj h), i, m, h2, h3⟩
          have : k ≠ n := by rintro rfl; rw [hk] at h4; cases h4
          rw [if_neg this]; exact h4

/-- `u` is in the pile, its name is not in the index. -/
def Unnamed (u : ι) (v : View ι) : Prop := St none none (some u) v ∧ u ∈ v.keys

/-- `u` is no longer in the pile, but still in its order. -/
def Gone (u : ι) (v : View ι) : Prop := St none (some u) none v ∧ u ∉ v.keys

theorem removeBody_own (u : ι) : Own0 (γ := γ) (δ := δ) (okOr AllIn (fun _ f => AllIn f)) 1 1 (fun f => Unnamed u (view f)) (withLock 2 (removeBody progsL (some u))) := by
  refine Own.otherLock (by decide) ?_
  refine Own.andThen1 (Qm := fun (x : ι × Flow.Prog ι) f => x.1 = u ∧ Gone u (view f)) (own_act (B := Unnamed u) (C := fun (x : ι × Flow.Prog ι) v => x.1 = u ∧ Gone u v) (fun f hf => ?_)) (fun x => ?_)
  · obtain ⟨hF, hk⟩ := hf
    simp only [Part.lift, progsL, popItem]
    split
    · next h => exact absurd hk ((Dict.get?_eq_none_iff _ _).1 h)
    · next p hp =>
      have hwf : f.progs.items.WF := hF.keysNodup
      refine ⟨rfl, ⟨Dict.del_wf hwf u, hF.namesWF, hF.orderNodup, fun v => ?_, fun v => ?_, fun v i m h => ?_, fun n v => ?_⟩, ?_⟩
      · show v ∈ f.progs.order ↔ (v ∈ (f.progs.items.del u).keys ∧ _) ∨ _
        rw [Dict.mem_keys_del hwf, show v ∈ f.progs.order ↔ _ from hF.mem v]
        simp only [view] at hk
        simp only [view, ne_eq, reduceCtorEq, not_false_eq_true, and_true, or_false, Option.some.injEq]
        constructor
        · intro h
          by_cases e : v = u
          · exact Or.inr e.symm
          · exact Or.inl ⟨e, h⟩
        · rintro (⟨-, h⟩ | h)
          · exact h
          · rw [← h]; exact hk
      · simp only [view, Option.isSome_map, Dict.get?_isSome_iff]
      · simp only [view, Dict.get?_del hwf] at h
        split at h
        · cases h
        · exact hF.ids v i m h
      · show f.names.get? n = some v ↔ _
        rw [show f.names.get? n = some v ↔ _ from hF.names n v]
        simp only [view, Dict.get?_del hwf]
        constructor
        · rintro ⟨h1, i, m, h2, h3⟩
          exact ⟨by simp, i, m, by rw [if_neg (fun e => h1 (by rw [e]))]; exact h2, h3⟩
        · rintro ⟨-, i, m, h2, h3⟩
          split at h2
          · cases h2
          · next e => exact ⟨fun h => e (Option.some.inj h), i, m, h2, h3⟩
      · show u ∉ (f.progs.items.del u).keys
        rw [Dict.mem_keys_del hwf]; exact fun h => h.1 rfl
  · refine own_act (B := fun v => x.1 = u ∧ Gone u v) (C := fun _ => Full) (fun f hf => ?_)
    obtain ⟨hx, hF, hnk⟩ := hf
    have hmem : u ∈ f.progs.order := (hF.mem u).2 (Or.inr rfl)
    simp only [Part.lift, progsL, removeId, Progression.remove, hx, if_pos hmem]
    refine ⟨hF.keysNodup, hF.namesWF, hF.orderNodup.erase u, fun v => ?_, hF.tags, hF.ids, hF.names⟩
    show v ∈ f.progs.order.erase u ↔ (v ∈ f.progs.items.keys ∧ _) ∨ _
    have hnd : f.progs.order.Nodup := hF.orderNodup
    rw [List.Nodup.mem_erase_iff hnd, show v ∈ f.progs.order ↔ _ from hF.mem v]
    simp only [view, ne_eq, reduceCtorEq, not_false_eq_true, and_true, or_false, Option.some.injEq]
    constructor
    · rintro ⟨h1, h | h⟩
      · exact h
      · exact absurd h.symm h1
    · intro h; exact ⟨by rintro rfl; exact hnk h, Or.inl h⟩

/-- `u` is in the pile, the index is complete. -/
def Known (u : ι) (p : Flow.Prog ι) (v : View ι) : Prop := Full v ∧ v.tag u = some (tagOf p)

theorem removeById_own (r : Ref ι) : Own0 (γ := γ) (δ := δ) (okOr AllIn (fun _ f => AllIn f)) 1 1 AllIn (removeById r) := by
  cases r with
  | none => simp only [removeById, Own]; exact ⟨by trivial, fun _ h => h⟩
  | some u =>
    refine Own.andThen1 (Qm := fun p f => Known u p (view f)) (Own.otherLock (by decide) (own_act (B := Full) (C := fun p => Known u p) (fun f hf => ?_))) (fun p => ?_)
    · simp only [Part.lift, progsL, PileSync.read, needProg]
      split
      · exact hf
      · next x hx => exact ⟨hf, by simp only [view, hx, Option.map_some]⟩
    refine Own.andThen1 (Qm := fun _ f => Unnamed u (view f)) (own_act (B := Known u p) (C := fun _ => Unnamed u) (fun f hf => ?_)) (fun _ => removeBody_own u)
    obtain ⟨hF, hT⟩ := hf
    have hpid := hF.ids u p.id p.data.name hT
    refine ⟨⟨hF.keysNodup, ?_, hF.orderNodup, hF.mem, hF.tags, hF.ids, fun n v => ?_⟩, (hF.tags u).2 (by rw [hT]; rfl)⟩
    · show (Flow.unregister f.names p).WF
      have := hF.namesWF
      simp only [Flow.unregister]
      split
      · split
        · exact Dict.del_wf hF.namesWF _
        · exact hF.namesWF
      · exact hF.namesWF
    · show (Flow.unregister f.names p).get? n = some v ↔ _
      have hkey : ∀ n, (Flow.unregister f.names p).get? n = if Flow.truthy p.data.name = some n then none else f.names.get? n := by
        intro n
        simp only [Flow.unregister]
        cases ht : Flow.truthy p.data.name with
        | none => simp
        | some k =>
          simp only [Option.some.injEq]
          have h1 : f.names.get? k = some u := (hF.names k u).2 ⟨by simp, p.id, p.data.name, hT, ht⟩
          have hwf : f.names.WF := hF.namesWF
          rw [if_pos ((Dict.has_iff _ _).2 (Dict.mem_keys_of_get? h1)), Dict.get?_del hwf]
      rw [hkey]
      have h1 := hF.names n v
      simp only [dropName, view] at h1 hT ⊢
      constructor
      · intro h
        split at h
        · cases h
        · next hne =>
          obtain ⟨-, i, m, h2, h3⟩ := h1.1 h
          refine ⟨?_, i, m, h2, h3⟩
          intro e; cases e
          rw [hT] at h2
          simp only [tagOf, Option.some.injEq, Prod.mk.injEq] at h2
          rw [h2.2] at hne; exact hne h3
      · rintro ⟨h0, i, m, h2, h3⟩
        have h4 := h1.2 ⟨by simp, i, m, h2, h3⟩
        rw [if_neg]
        · exact h4
        · intro h5
          have h6 := (hF.names n u).2 ⟨by simp, p.id, p.data.name, hT, h5⟩
          rw [show (view f).names = f.names from rfl, h4] at h6
          cases h6; exact h0 rfl

/-- After the name has been taken out of the index, if it was there. -/
def Taken : Option ι → View ι → Prop
  | none, v => Full v
  | some u, v => Unnamed u v

theorem removeProgression_own (k : Flow.FKey ι) : Own0 (γ := γ) (δ := δ) (okOr AllIn (fun _ f => AllIn f)) 1 1 AllIn (removeProgression k) := by
  cases k with
  | ref r => exact removeById_own r
  | str s =>
    refine Own.bind (Q' := fun r f => Taken r (view f)) (fun r => ?_) _ 1 _ (Own.act1 (fun r => closed_view (Taken r)) (fun f hf => ?_))
    · cases r with
      | none => exact removeById_own s.parsed
      | some u =>
        refine Own.andThen1 (Qm := fun p f => Unnamed u (view f)) (Own.otherLock (by decide) (own_act (B := Unnamed u) (C := fun p => Unnamed u) (fun f hf => ?_))) (fun p => removeBody_own u)
        simp only [Part.lift, progsL, PileSync.read, needProg]
        split
        · next h => exact absurd hf.2 ((Dict.get?_eq_none_iff _ _).1 h)
        · exact hf
    · simp only [takeName]
      split
      · next u hu =>
        obtain ⟨-, i, m, hT, hm⟩ := (hf.names s.str u).1 hu
        have hf' : Full (view f) := hf
        refine ⟨⟨hf'.keysNodup, Dict.del_wf hf'.namesWF _, hf'.orderNodup, hf'.mem, hf'.tags, hf'.ids, fun n v => ?_⟩, (hf'.tags u).2 (by rw [hT]; rfl)⟩
        show (f.names.del s.str).get? n = some v ↔ _
        have hwf : f.names.WF := hf'.namesWF
        rw [Dict.get?_del hwf]
        have h1 := hf'.names n v
        simp only [view] at h1 hT ⊢
        constructor
        · intro h
          split at h
          · cases h
          · next hne =>
            obtain ⟨-, i', m', h2, h3⟩ := h1.1 h
            refine ⟨?_, i', m', h2, h3⟩
            intro e; cases e
            rw [hT] at h2
            simp only [Option.some.injEq, Prod.mk.injEq] at h2
            rw [← h2.2, hm] at h3; exact hne (Option.some.inj h3)
        · rintro ⟨h0, i', m', h2, h3⟩
          have h4 := h1.2 ⟨by simp, i', m', h2, h3⟩
          rw [if_neg]
          · exact h4
          · rintro rfl
            rw [hu] at h4; cases h4; exact h0 rfl
      · exact hf

theorem call_own (sub : γ → γ → Bool) (fuel : Nat) (c : Flow.Op ι γ δ) : Own0 anyPost 0 0 (fun _ => True) (call sub fuel c) := by
  cases c with
  | addProgression p => exact Own.locked (Own.mapOk1 (Own.toJ (addProgression_own p)))
  | removeProgression k => exact Own.locked (Own.mapOk1 (Own.toJ (removeProgression_own k)))
  | addItem a ps => exact Own.mapOk0 (addItem_own sub a ps)
  | removeItem r => exact Own.mapOk0 (removeItem_own fuel r)

/-! ## Lock 1: the items -/

/-- Same items. -/
def SameItems (f g : Flow ι γ δ) : Prop := g.items = f.items

theorem closed_items (B : Pile ι γ δ → Prop) : Closed (SameItems (ι := ι) (γ := γ) (δ := δ)) (fun f => B f.items) := by
  intro f g h e
  simp only [SameItems] at e
  show B g.items
  rw [e]; exact h

def ItemsIn (f : Flow ι γ δ) : Prop := Pile.Inv f.items

theorem closed_itemsIn : Closed (SameItems (ι := ι) (γ := γ) (δ := δ)) ItemsIn := closed_items Pile.Inv

abbrev Own1 {α : Type} (Q : α → Flow ι γ δ → Prop) (e n : Nat) (A : Flow ι γ δ → Prop) (p : Prog (Flow ι γ δ) α) : Prop :=
  Own 1 SameItems ItemsIn Q e n A p

theorem appendAll_own1 (x : ι) : ∀ as : List (Flow.ProgArg ι), Own1 (γ := γ) (δ := δ) anyPost 0 0 (fun _ => True) (appendAll x as)
  | [] => Own.ret0
  | .foreign :: as => appendAll_own1 x as
  | .member u :: as => Own.andThen0 (Own.act0 (fun f => rfl)) (fun _ => appendAll_own1 x as)
  | .key k :: as => Own.andThen0 (Own.otherLock (by decide) (Own.act0 (fun f => rfl))) (fun p => Own.andThen0 (Own.act0 (fun f => rfl)) (fun _ => appendAll_own1 x as))

theorem own_act_items {β : Type} {g : Pile ι γ δ → Res (Pile ι γ δ) β} {B : Pile ι γ δ → Prop} {C : β → Pile ι γ δ → Prop}
    (h : ∀ p, B p → okOr Pile.Inv C (g p).2 (g p).1) : Own1 (okOr ItemsIn (fun b f => C b f.items)) 1 1 (fun f => B f.items) (itemsL.act g) := by
  refine Own.act1 (okOr_closed closed_itemsIn (fun b => closed_items (C b))) (fun f hf => ?_)
  have := h f.items hf
  simp only [Part.lift, itemsL]
  cases hg : (g f.items).2 with
  | ok b => rw [hg] at this; exact this
  | error e => rw [hg] at this; exact this

/-- `x` is stored, but not yet in the order. -/
def HalfIn (x : Item ι γ δ) (q : Pile ι γ δ) : Prop := ∃ p : Pile ι γ δ, x.id ∉ p.items.keys ∧ Pile.Inv p ∧ q = { p with items := p.items.set x.id x }

/-- `u` is no longer stored, but still in the order. -/
def HalfOut (u : ι) (q : Pile ι γ δ) : Prop := ∃ p : Pile ι γ δ, u ∈ p.items.keys ∧ Pile.Inv p ∧ q = { p with items := p.items.del u }

theorem addBody_own1 (sub : γ → γ → Bool) (a : Pile.Arg ι γ δ) : Own1 (okOr ItemsIn (fun _ f => ItemsIn f)) 1 1 ItemsIn (addBody itemsL sub a) := by
  refine Own.andThen1 (Qm := fun (x : Item ι γ δ) f => x.id ∉ f.items.items.keys ∧ Pile.Inv f.items) (own_act_items (B := Pile.Inv) (C := fun (x : Item ι γ δ) p => x.id ∉ p.items.keys ∧ Pile.Inv p) (fun p hp => ?_)) (fun x => ?_)
  · cases a with
    | none => exact hp
    | some y =>
      rcases addCheck_cases sub y p with ⟨e, he⟩ | ⟨he, hk⟩
      · rw [he]; exact hp
      · rw [he]; exact ⟨hk, hp⟩
  refine Own.andThen1 (Qm := fun _ f => HalfIn x f.items)
    (own_act_items (B := fun p => x.id ∉ p.items.keys ∧ Pile.Inv p) (C := fun _ q => HalfIn x q)
      (fun p hp => by exact ⟨p, hp.1, hp.2, rfl⟩)) (fun _ => ?_)
  refine own_act_items (B := fun q => HalfIn x q) (C := fun _ => Pile.Inv) (fun q hq => ?_)
  obtain ⟨p, h1, h2, rfl⟩ := hq
  exact (Pile.abs_add h2 x h1).1

theorem removeBody_own1 (uid : ι) : Own1 (γ := γ) (δ := δ) (okOr ItemsIn (fun _ f => ItemsIn f)) 1 1 ItemsIn (removeBody itemsL (some uid)) := by
  refine Own.andThen1 (Qm := fun (x : ι × Item ι γ δ) f => HalfOut x.1 f.items)
    (own_act_items (B := Pile.Inv) (C := fun (x : ι × Item ι γ δ) q => HalfOut x.1 q) (fun p hp => ?_)) (fun x => ?_)
  · simp only [popItem]
    split
    · exact hp
    · next x hx => exact ⟨p, Dict.mem_keys_of_get? hx, hp, rfl⟩
  refine own_act_items (B := fun q => HalfOut x.1 q) (C := fun _ => Pile.Inv) (fun q hq => ?_)
  obtain ⟨p, h1, h2, rfl⟩ := hq
  have hm : x.1 ∈ p.order := (h2.mem_iff _).2 h1
  simp only [removeId, Progression.remove, if_pos hm]
  exact (Pile.abs_del (p := p) h2 x.1).1

theorem addItem_own1 (sub : γ → γ → Bool) (a : Pile.Arg ι γ δ) (ps : List (Flow.ProgArg ι)) : Own1 anyPost 0 0 (fun _ => True) (addItem sub a ps) := by
  refine Own.andThen0 (Own.locked (Own.toJ (addBody_own1 sub a))) (fun _ => ?_)
  cases a with
  | none => exact Own.ret0
  | some x => exact appendAll_own1 x.id ps

theorem dropLoop_own1 (uid : ι) : ∀ (fuel k : Nat), Own1 (γ := γ) (δ := δ) anyPost 0 0 (fun _ => True) (dropLoop uid fuel k)
  | 0, _ => Own.ret0
  | fuel + 1, k => by
    refine Own.bind (Q' := anyPost) (fun r => ?_) _ 0 _ (Own.act0 (fun f => rfl))
    cases r with
    | none => exact Own.ret0
    | some u =>
      refine Own.weaken _ _ _ (fun _ => True) (fun _ _ => trivial) ?_
      refine Own.andThen0 (Own.act0 (fun f => ?_)) (fun _ => Own.andThen0 (Own.act0 (fun f => ?_)) (fun b => Own.andThen0 ?_ (fun _ => dropLoop_own1 uid fuel (k + 1))))
      · simp only [yieldProg]; split <;> rfl
      · simp only [listedIn]; split <;> rfl
      · cases b with
        | true =>
          refine Own.act0 (fun f => ?_)
          simp only [removeFrom]
          split
          · rfl
          · split <;> rfl
        | false => exact Own.ret0

theorem removeItem_own1 (fuel : Nat) (r : Ref ι) : Own1 (γ := γ) (δ := δ) anyPost 0 0 (fun _ => True) (removeItem fuel r) := by
  cases r with
  | none => exact Own.ret0
  | some uid => exact Own.andThen0 (dropLoop_own1 uid fuel 0) (fun _ => Own.locked (Own.toJ (removeBody_own1 uid)))

theorem progs_act_own1 {β : Type} (g : Pile ι Unit (ProgData ι) → Pile ι Unit (ProgData ι) × β) : Own1 (γ := γ) (δ := δ) anyPost 0 0 (fun _ => True) (progsL.act g) :=
  Own.act0 (fun f => rfl)

theorem addProgression_own1 (p : Flow.Prog ι) : Own1 (γ := γ) (δ := δ) anyPost 0 0 (fun _ => True) (addProgression p) := by
  refine Own.andThen0 (Own.act0 (fun f => ?_)) (fun _ => Own.andThen0 (Own.act0 (fun f => ?_)) (fun _ => Own.andThen0
    (Own.otherLock (by decide) (Own.andThen0 (progs_act_own1 _) (fun _ => Own.andThen0 (progs_act_own1 _) (fun _ => progs_act_own1 _)))) (fun _ => Own.act0 (fun f => rfl))))
  · simp only [nameCheck]; split <;> rfl
  · simp only [missingCheck]; split <;> rfl

theorem removeProgs_own1 (u : ι) : Own1 (γ := γ) (δ := δ) anyPost 0 0 (fun _ => True) (withLock 2 (removeBody progsL (some u))) :=
  Own.otherLock (by decide) (Own.andThen0 (progs_act_own1 _) (fun _ => progs_act_own1 _))

theorem removeById_own1 (r : Ref ι) : Own1 (γ := γ) (δ := δ) anyPost 0 0 (fun _ => True) (removeById r) := by
  cases r with
  | none => exact Own.ret0
  | some u => exact Own.andThen0 (Own.otherLock (by decide) (progs_act_own1 _)) (fun p => Own.andThen0 (Own.act0 (fun f => rfl)) (fun _ => removeProgs_own1 u))

theorem removeProgression_own1 (k : Flow.FKey ι) : Own1 (γ := γ) (δ := δ) anyPost 0 0 (fun _ => True) (removeProgression k) := by
  cases k with
  | ref r => exact removeById_own1 r
  | str s =>
    refine Own.bind (Q' := anyPost) (fun r => ?_) _ 0 _ (Own.act0 (fun f => ?_))
    · refine Own.weaken _ _ _ (fun _ => True) (fun _ _ => trivial) ?_
      cases r with
      | none => exact removeById_own1 s.parsed
      | some u => exact Own.andThen0 (Own.otherLock (by decide) (progs_act_own1 _)) (fun _ => removeProgs_own1 u)
    · simp only [takeName]; split <;> rfl

theorem call_own1 (sub : γ → γ → Bool) (fuel : Nat) (c : Flow.Op ι γ δ) : Own1 anyPost 0 0 (fun _ => True) (call sub fuel c) := by
  cases c with
  | addProgression p => exact Own.otherLock (by decide) (Own.mapOk0 (addProgression_own1 p))
  | removeProgression k => exact Own.otherLock (by decide) (Own.mapOk0 (removeProgression_own1 k))
  | addItem a ps => exact Own.mapOk0 (addItem_own1 sub a ps)
  | removeItem r => exact Own.mapOk0 (removeItem_own1 fuel r)

end Verif.FlowSync
