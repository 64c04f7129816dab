import Verif.Lemmas.Pile
import Verif.Model.Flow

/-! # Helper lemmas for the `Flow` properties -/

set_option linter.unusedSectionVars false
set_option linter.unusedSimpArgs false

namespace Verif

namespace Flow

variable {ι γ δ : Type} [DecidableEq ι] [DecidableEq γ]

theorem truthy_eq_some_iff (n : Option String) (s : String) : truthy n = some s ↔ n = some s ∧ s ≠ "" := by
  unfold truthy Pile.truthyName
  cases n with
  | none => simp
  | some m =>
    simp only
    split
    · next h => subst h; constructor
                · intro h; cases h
                · rintro ⟨h, h2⟩; cases h; exact absurd rfl h2
    · next h => constructor
                · intro h2; cases h2; exact ⟨rfl, h⟩
                · rintro ⟨h2, _⟩; exact h2

/-- Both piles are consistent. -/
structure PInv (f : Flow ι γ δ) : Prop where
  items : Pile.Inv f.items
  progs : Pile.Inv f.progs

/-- The name index is exactly the naming relation of the stored progressions. -/
def NamesOK (f : Flow ι γ δ) : Prop :=
  ∀ n u, f.names.get? n = some u ↔ ∃ p, f.progs.items.get? u = some p ∧ truthy p.data.name = some n

/-- Every id listed in a progression is stored. -/
def Integrity (f : Flow ι γ δ) : Prop :=
  ∀ u p, f.progs.items.get? u = some p → ∀ x ∈ p.data.order, x ∈ f.items.items.keys

/-- Content update of a progression object. -/
def upd (g : List ι → List ι) (p : Prog ι) : Prog ι := { p with data := { p.data with order := g p.data.order } }

theorem modify_inv {pp : Pile ι Unit (ProgData ι)} (h : Pile.Inv pp) (u : ι) (g : List ι → List ι) :
    Pile.Inv (modify pp u g) := by
  unfold modify
  split
  · exact h
  · next p hp =>
    have hid := h.ids u p hp
    have hk : (upd g p).id ∈ pp.items.keys := by
      show p.id ∈ _
      rw [hid]; exact Dict.mem_keys_of_get? hp
    have := (Pile.abs_set h (upd g p) hk).1
    have e : (upd g p).id = u := hid
    rw [e] at this
    exact this

theorem modify_get? {pp : Pile ι Unit (ProgData ι)} (u v : ι) (g : List ι → List ι) :
    (modify pp u g).items.get? v = if u = v then (pp.items.get? v).map (upd g) else pp.items.get? v := by
  unfold modify
  split
  · next h => split
              · next e => subst e; rw [h]; rfl
              · rfl
  · next p hp =>
    simp only [Dict.get?_set]
    split
    · next e => subst e; rw [hp]; rfl
    · rfl

theorem modify_order (pp : Pile ι Unit (ProgData ι)) (u : ι) (g : List ι → List ι) :
    (modify pp u g).order = pp.order := by
  unfold modify; split <;> rfl

theorem modify_name {pp : Pile ι Unit (ProgData ι)} (u v : ι) (g : List ι → List ι) :
    ((modify pp u g).items.get? v).map (fun p => p.data.name) = (pp.items.get? v).map (fun p => p.data.name) := by
  rw [modify_get?]
  split
  · cases pp.items.get? v <;> rfl
  · rfl

theorem namesOK_of_same_names {f g : Flow ι γ δ} (h : NamesOK f) (hn : g.names = f.names)
    (hp : ∀ v, (g.progs.items.get? v).map (fun p => p.data.name) = (f.progs.items.get? v).map (fun p => p.data.name)) :
    NamesOK g := by
  intro n u
  rw [hn, h n u]
  have := hp u
  constructor
  · rintro ⟨p, hp1, hp2⟩
    rw [hp1] at this
    cases hg : g.progs.items.get? u with
    | none => rw [hg] at this; cases this
    | some q =>
      rw [hg] at this
      simp only [Option.map_some, Option.some.injEq] at this
      exact ⟨q, rfl, by rw [this]; exact hp2⟩
  · rintro ⟨p, hp1, hp2⟩
    rw [hp1] at this
    cases hg : f.progs.items.get? u with
    | none => rw [hg] at this; cases this
    | some q =>
      rw [hg] at this
      simp only [Option.map_some, Option.some.injEq] at this
      exact ⟨q, rfl, by rw [← this]; exact hp2⟩

/-! ### `dropEverywhere` -/

theorem dropEverywhere_spec (uid : ι) (us : List ι) :
    ∀ (pp : Pile ι Unit (ProgData ι)), Pile.Inv pp → us.Nodup → (∀ u ∈ us, u ∈ pp.items.keys) →
      ∃ qq, dropEverywhere pp uid us = (qq, .ok ()) ∧ Pile.Inv qq ∧ qq.order = pp.order ∧
        ∀ v, qq.items.get? v = if v ∈ us then (pp.items.get? v).map (upd (dropFrom uid)) else pp.items.get? v := by
  induction us with
  | nil => intro pp h _ _; exact ⟨pp, rfl, h, rfl, by simp⟩
  | cons u us ih =>
    intro pp h hn hk
    rw [List.nodup_cons] at hn
    obtain ⟨p, hp⟩ := Option.isSome_iff_exists.1 ((Dict.get?_isSome_iff _ _).2 (hk u (by simp)))
    obtain ⟨qq, h1, h2, h3, h4⟩ := ih (modify pp u (dropFrom uid)) (modify_inv h _ _) hn.2 (by
      intro v hv
      rw [← Dict.get?_isSome_iff, modify_get?]
      have := (Dict.get?_isSome_iff _ _).2 (hk v (by simp [hv]))
      split
      · simpa using this
      · exact this)
    refine ⟨qq, by simp only [dropEverywhere, hp]; exact h1, h2, by rw [h3, modify_order], ?_⟩
    intro v
    rw [h4 v, modify_get?]
    by_cases e : u = v
    · subst e; simp [hn.1]
    · simp [e, Ne.symm e]

theorem dropAll_spec {f : Flow ι γ δ} (h : PInv f) (uid : ι) :
    ∃ qq, dropEverywhere f.progs uid f.progs.order = (qq, .ok ()) ∧ Pile.Inv qq ∧ qq.order = f.progs.order ∧
      ∀ v, qq.items.get? v = (f.progs.items.get? v).map (upd (dropFrom uid)) := by
  obtain ⟨qq, h1, h2, h3, h4⟩ := dropEverywhere_spec uid f.progs.order f.progs h.progs h.progs.nodup
    (fun u hu => (h.progs.mem_iff u).1 hu)
  refine ⟨qq, h1, h2, h3, ?_⟩
  intro v
  rw [h4 v]
  split
  · rfl
  · next hv =>
    rw [h.progs.mem_iff] at hv
    rw [(Dict.get?_eq_none_iff _ _).2 hv]; rfl

theorem removeItem_bad (f : Flow ι γ δ) : removeItem f none = (f, .error .valueError) := rfl

theorem removeItem_eq {f : Flow ι γ δ} (h : PInv f) (uid : ι) :
    ∃ qq, Pile.Inv qq ∧ qq.order = f.progs.order ∧
      (∀ v, qq.items.get? v = (f.progs.items.get? v).map (upd (dropFrom uid))) ∧
      removeItem f (some uid) =
        ({ f with progs := qq, items := (Pile.remove f.items (some uid)).1 }, (Pile.remove f.items (some uid)).2) := by
  obtain ⟨qq, h1, h2, h3, h4⟩ := dropAll_spec h uid
  refine ⟨qq, h2, h3, h4, ?_⟩
  simp only [removeItem, h1]

/-! ### `appendAll` -/

theorem getProgression_id {f : Flow ι γ δ} (h : Pile.Inv f.progs) {k : FKey ι} {p : Prog ι}
    (hk : getProgression f k = .ok p) : f.progs.items.get? p.id = some p := by
  have key : ∀ u, (match f.progs.items.get? u with
      | some p => (Except.ok p : Except Exc (Prog ι))
      | none => .error .notFound) = .ok p → f.progs.items.get? p.id = some p := by
    intro u hu
    split at hu
    · next q hq =>
      cases hu
      have := h.ids u p hq
      rw [this]; exact hq
    · cases hu
  cases k with
  | str s =>
    simp only [getProgression] at hk
    split at hk
    · exact key _ hk
    · split at hk
      · cases hk
      · exact key _ hk
  | ref r =>
    cases r with
    | none => simp [getProgression] at hk
    | some u => exact key u hk

/-- What the append loop can do: the progressions keep their ids, order in the pile, names; each order gains some
copies of `x` at its end. -/
theorem appendAll_spec (x : ι) (as : List (ProgArg ι)) :
    ∀ (f : Flow ι γ δ), PInv f →
      (appendAll f x as).1.items = f.items ∧ (appendAll f x as).1.names = f.names ∧
      PInv (appendAll f x as).1 ∧ (appendAll f x as).1.progs.order = f.progs.order ∧
      ∀ v, ∃ k, (appendAll f x as).1.progs.items.get? v =
        (f.progs.items.get? v).map (upd (· ++ List.replicate k x)) := by
  have hid : ∀ (o : Option (Prog ι)), o = o.map (upd (· ++ List.replicate 0 x)) := by
    intro o; cases o with
    | none => rfl
    | some p => obtain ⟨a, b, c, d⟩ := p; simp [upd]
  have hstep : ∀ (f r : Flow ι γ δ) (u : ι),
      (r.items = f.items ∧ r.names = f.names ∧ PInv r ∧ r.progs.order = (modify f.progs u (· ++ [x])).order ∧
        ∀ v, ∃ k, r.progs.items.get? v =
          ((modify f.progs u (· ++ [x])).items.get? v).map (upd (· ++ List.replicate k x))) →
      (r.items = f.items ∧ r.names = f.names ∧ PInv r ∧ r.progs.order = f.progs.order ∧
        ∀ v, ∃ k, r.progs.items.get? v = (f.progs.items.get? v).map (upd (· ++ List.replicate k x))) := by
    intro f r u hr
    obtain ⟨h1, h2, h3, h4, h5⟩ := hr
    refine ⟨h1, h2, h3, by rw [h4, modify_order], ?_⟩
    intro v
    obtain ⟨k, hk⟩ := h5 v
    rw [modify_get?] at hk
    by_cases e : u = v
    · refine ⟨k + 1, ?_⟩
      rw [hk, if_pos e, Option.map_map]
      congr 1
      funext p
      simp [upd, List.replicate_succ]
    · refine ⟨k, ?_⟩
      rw [hk, if_neg e]
  induction as with
  | nil => intro f h; exact ⟨rfl, rfl, h, rfl, fun v => ⟨0, hid _⟩⟩
  | cons a as ih =>
    intro f h
    cases a with
    | foreign => exact ih f h
    | member u =>
      have h' : PInv { f with progs := modify f.progs u (· ++ [x]) } := ⟨h.items, modify_inv h.progs u (· ++ [x])⟩
      exact hstep f _ u (ih _ h')
    | key k =>
      simp only [appendAll]
      split
      · exact ⟨rfl, rfl, h, rfl, fun v => ⟨0, hid _⟩⟩
      · next p hp =>
        have h' : PInv { f with progs := modify f.progs p.id (· ++ [x]) } := ⟨h.items, modify_inv h.progs p.id (· ++ [x])⟩
        exact hstep f _ p.id (ih _ h')

/-! ### Preservation of the pile invariants -/

theorem dropProgression_ok {f : Flow ι γ δ} (h : PInv f) {u : ι} {p : Prog ι} (hp : f.progs.items.get? u = some p)
    (d : Dict String ι) :
    dropProgression { f with names := d } u =
      ({ f with names := d, progs := { f.progs with items := f.progs.items.del u, order := f.progs.order.erase u } }, .ok p) := by
  simp only [dropProgression, Pile.remove_ok h.progs hp]

theorem addProgression_cases (f : Flow ι γ δ) (p : Prog ι) :
    (∃ e, addProgression f p = (f, .error e)) ∨
    (nameTaken f.names p = false ∧ missing f.items p.data.order = false ∧ p.id ∉ f.progs.items.keys ∧
      addProgression f p =
        ({ f with progs := { f.progs with items := f.progs.items.set p.id p, order := f.progs.order ++ [p.id] },
                  names := register f.names p }, .ok ())) := by
  unfold addProgression
  split
  · exact Or.inl ⟨_, rfl⟩
  · next h1 =>
    split
    · exact Or.inl ⟨_, rfl⟩
    · next h2 =>
      rcases Pile.add_cases anySub f.progs (some p) with ⟨e, he⟩ | ⟨x, hx, hk, he⟩
      · rw [he]; exact Or.inl ⟨e, rfl⟩
      · cases hx
        rw [he]
        exact Or.inr ⟨Bool.eq_false_iff.2 h1, Bool.eq_false_iff.2 h2, hk, rfl⟩

theorem PInv.addProgression {f : Flow ι γ δ} (h : PInv f) (p : Prog ι) : PInv (addProgression f p).1 := by
  rcases addProgression_cases f p with ⟨e, he⟩ | ⟨_, _, hk, he⟩
  · rw [he]; exact h
  · rw [he]; exact ⟨h.items, (Pile.abs_add h.progs p hk).1⟩

theorem PInv.removeById {f : Flow ι γ δ} (h : PInv f) (r : Ref ι) : PInv (removeById f r).1 := by
  cases r with
  | none => exact h
  | some u =>
    simp only [Flow.removeById]
    split
    · exact h
    · next p hp =>
      rw [dropProgression_ok h hp]
      exact ⟨h.items, (Pile.abs_del h.progs u).1⟩

theorem PInv.removeProgression {f : Flow ι γ δ} (h : PInv f) (k : FKey ι) : PInv (removeProgression f k).1 := by
  cases k with
  | ref r => exact h.removeById r
  | str s =>
    simp only [Flow.removeProgression]
    split
    · next u hu =>
      split
      · exact ⟨h.items, h.progs⟩
      · next p hp =>
        rw [dropProgression_ok h hp]
        exact ⟨h.items, (Pile.abs_del h.progs u).1⟩
    · exact h.removeById _

theorem PInv.addItem {f : Flow ι γ δ} (h : PInv f) (sub : γ → γ → Bool) (a : Pile.Arg ι γ δ) (ps : List (ProgArg ι)) :
    PInv (addItem sub f a ps).1 := by
  unfold Flow.addItem
  rcases Pile.add_cases sub f.items a with ⟨e, he⟩ | ⟨x, rfl, hk, he⟩
  · rw [he]; exact ⟨h.items, h.progs⟩
  · rw [he]
    have h' : PInv { f with items := { f.items with items := f.items.items.set x.id x, order := f.items.order ++ [x.id] } } :=
      ⟨(Pile.abs_add h.items x hk).1, h.progs⟩
    exact (appendAll_spec x.id ps _ h').2.2.1

theorem PInv.removeItem {f : Flow ι γ δ} (h : PInv f) (r : Ref ι) : PInv (removeItem f r).1 := by
  cases r with
  | none => exact h
  | some uid =>
    obtain ⟨qq, h1, h2, h3, h4⟩ := removeItem_eq h uid
    rw [h4]
    refine ⟨?_, h1⟩
    cases hg : f.items.items.get? uid with
    | none => rw [Pile.remove_absent hg]; exact h.items
    | some x => rw [Pile.remove_ok h.items hg]; exact (Pile.abs_del h.items uid).1

theorem PInv.step {f : Flow ι γ δ} (h : PInv f) (sub : γ → γ → Bool) (op : Op ι γ δ) : PInv (step sub f op).1 := by
  cases op with
  | addProgression p => exact h.addProgression p
  | removeProgression k => exact h.removeProgression k
  | addItem a ps => exact h.addItem sub a ps
  | removeItem r => exact h.removeItem r

/-! ### Preservation of the name index -/

theorem NamesOK.addProgression {f : Flow ι γ δ} (hn : NamesOK f) (p : Prog ι) :
    NamesOK (addProgression f p).1 := by
  rcases addProgression_cases f p with ⟨e, he⟩ | ⟨hfree, _, hk, he⟩
  · rw [he]; exact hn
  rw [he]
  have hnone : f.progs.items.get? p.id = none := (Dict.get?_eq_none_iff _ _).2 hk
  cases ht : truthy p.data.name with
  | none =>
    intro m u
    simp only [Dict.get?_set, register, ht]
    rw [hn m u]
    constructor
    · rintro ⟨q, hq, hqn⟩
      have : p.id ≠ u := by rintro rfl; rw [hnone] at hq; cases hq
      exact ⟨q, by rw [if_neg this]; exact hq, hqn⟩
    · rintro ⟨q, hq, hqn⟩
      split at hq
      · cases hq; rw [ht] at hqn; cases hqn
      · exact ⟨q, hq, hqn⟩
  | some n =>
    simp only [nameTaken, ht] at hfree
    rw [Dict.has_eq_false_iff, ← Dict.get?_eq_none_iff] at hfree
    intro m u
    simp only [Dict.get?_set, register, ht]
    constructor
    · intro hm
      split at hm
      · next e => subst e; cases hm; exact ⟨p, by simp, ht⟩
      · next e =>
        obtain ⟨q, hq, hqn⟩ := (hn m u).1 hm
        have : p.id ≠ u := by rintro rfl; rw [hnone] at hq; cases hq
        exact ⟨q, by rw [if_neg this]; exact hq, hqn⟩
    · rintro ⟨q, hq, hqn⟩
      split at hq
      · next e => cases hq; rw [ht] at hqn; cases hqn; simp [e]
      · have := (hn m u).2 ⟨q, hq, hqn⟩
        have hne : n ≠ m := by rintro rfl; rw [hfree] at this; cases this
        rw [if_neg hne]; exact this

theorem namesOK_drop {f : Flow ι γ δ} (h : PInv f) (hn : NamesOK f) {u : ι} {p : Prog ι}
    (hp : f.progs.items.get? u = some p) (d : Dict String ι)
    (hd : ∀ m, d.get? m = if truthy p.data.name = some m then none else f.names.get? m) :
    NamesOK { f with names := d, progs := { f.progs with items := f.progs.items.del u, order := f.progs.order.erase u } } := by
  intro m v
  show d.get? m = some v ↔ ∃ q, (f.progs.items.del u).get? v = some q ∧ _
  simp only [hd, Dict.get?_del h.progs.wf]
  constructor
  · intro hm
    split at hm
    · cases hm
    · next hne =>
      obtain ⟨q, hq, hqn⟩ := (hn m v).1 hm
      have : u ≠ v := by
        rintro rfl; rw [hp] at hq; cases hq; exact hne hqn
      exact ⟨q, by rw [if_neg this]; exact hq, hqn⟩
  · rintro ⟨q, hq, hqn⟩
    split at hq
    · cases hq
    · next hne =>
      have h1 := (hn m v).2 ⟨q, hq, hqn⟩
      have h2 : truthy p.data.name ≠ some m := by
        intro ht
        have h3 := (hn m u).2 ⟨p, hp, ht⟩
        rw [h1] at h3; cases h3; exact hne rfl
      rw [if_neg h2]; exact h1

theorem NamesOK.removeById {f : Flow ι γ δ} (h : PInv f) (wf : f.names.WF) (hn : NamesOK f) (r : Ref ι) :
    NamesOK (removeById f r).1 ∧ (removeById f r).1.names.WF := by
  cases r with
  | none => exact ⟨hn, wf⟩
  | some u =>
    simp only [Flow.removeById]
    split
    · exact ⟨hn, wf⟩
    · next p hp =>
      rw [dropProgression_ok h hp]
      constructor
      · apply namesOK_drop h hn hp
        intro m
        unfold unregister
        cases ht : truthy p.data.name with
        | none => simp
        | some n =>
          simp only [Option.some.injEq]
          have := (hn n u).2 ⟨p, hp, ht⟩
          have hh : f.names.has n = true := (Dict.has_iff _ _).2 (Dict.mem_keys_of_get? this)
          rw [if_pos hh, Dict.get?_del wf]
      · show (unregister f.names p).WF
        unfold unregister
        split
        · split
          · exact Dict.del_wf wf _
          · exact wf
        · exact wf

theorem NamesOK.removeProgression {f : Flow ι γ δ} (h : PInv f) (wf : f.names.WF) (hn : NamesOK f) (k : FKey ι) :
    NamesOK (removeProgression f k).1 ∧ (removeProgression f k).1.names.WF := by
  cases k with
  | ref r => exact NamesOK.removeById h wf hn r
  | str s =>
    simp only [Flow.removeProgression]
    split
    · next u hu =>
      obtain ⟨p, hp, hpn⟩ := (hn _ _).1 hu
      simp only [hp]
      rw [dropProgression_ok h hp]
      refine ⟨?_, Dict.del_wf wf _⟩
      apply namesOK_drop h hn hp
      intro m
      rw [Dict.get?_del wf, hpn]
      simp
    · exact NamesOK.removeById h wf hn _

theorem register_wf {d : Dict String ι} (wf : d.WF) (p : Prog ι) : (register d p).WF := by
  unfold register
  split
  · exact Dict.set_wf wf _ _
  · exact wf

theorem addProgression_names_wf {f : Flow ι γ δ} (wf : f.names.WF) (p : Prog ι) : (addProgression f p).1.names.WF := by
  rcases addProgression_cases f p with ⟨e, he⟩ | ⟨_, _, _, he⟩
  · rw [he]; exact wf
  · rw [he]; exact register_wf wf p

theorem NamesOK.addItem {f : Flow ι γ δ} (h : PInv f) (hn : NamesOK f) (sub : γ → γ → Bool) (a : Pile.Arg ι γ δ)
    (ps : List (ProgArg ι)) : NamesOK (addItem sub f a ps).1 ∧ (addItem sub f a ps).1.names = f.names := by
  unfold Flow.addItem
  rcases Pile.add_cases sub f.items a with ⟨e, he⟩ | ⟨x, rfl, hk, he⟩
  · rw [he]; exact ⟨hn, rfl⟩
  · rw [he]
    simp only
    have h' : PInv { f with items := { f.items with items := f.items.items.set x.id x, order := f.items.order ++ [x.id] } } :=
      ⟨(Pile.abs_add h.items x hk).1, h.progs⟩
    obtain ⟨h1, h2, h3, h4, h5⟩ := appendAll_spec x.id ps _ h'
    refine ⟨namesOK_of_same_names (f := f) hn h2 ?_, h2⟩
    intro v
    obtain ⟨k, hk⟩ := h5 v
    rw [hk]
    simp only [Option.map_map]
    cases f.progs.items.get? v <;> rfl

theorem NamesOK.removeItem {f : Flow ι γ δ} (h : PInv f) (hn : NamesOK f) (r : Ref ι) :
    NamesOK (removeItem f r).1 ∧ (removeItem f r).1.names = f.names := by
  cases r with
  | none => exact ⟨hn, rfl⟩
  | some uid =>
    obtain ⟨qq, h1, h2, h3, h4⟩ := removeItem_eq h uid
    rw [h4]
    refine ⟨namesOK_of_same_names (f := f) hn rfl ?_, rfl⟩
    intro v
    show (qq.items.get? v).map _ = _
    rw [h3 v]
    simp only [Option.map_map]
    cases f.progs.items.get? v <;> rfl

/-- All the unconditional invariants together. -/
structure Good (f : Flow ι γ δ) : Prop where
  piles : PInv f
  namesWF : f.names.WF
  names : NamesOK f

theorem Good.step {f : Flow ι γ δ} (h : Good f) (sub : γ → γ → Bool) (op : Op ι γ δ) : Good (step sub f op).1 := by
  refine ⟨h.piles.step sub op, ?_, ?_⟩
  · cases op with
    | addProgression p => exact addProgression_names_wf h.namesWF p
    | removeProgression k => exact (NamesOK.removeProgression h.piles h.namesWF h.names k).2
    | addItem a ps =>
      show (Flow.addItem sub f a ps).1.names.WF
      rw [(NamesOK.addItem h.piles h.names sub a ps).2]; exact h.namesWF
    | removeItem r =>
      show (Flow.removeItem f r).1.names.WF
      rw [(NamesOK.removeItem h.piles h.names r).2]; exact h.namesWF
  · cases op with
    | addProgression p => exact NamesOK.addProgression h.names p
    | removeProgression k => exact (NamesOK.removeProgression h.piles h.namesWF h.names k).1
    | addItem a ps => exact (NamesOK.addItem h.piles h.names sub a ps).1
    | removeItem r => exact (NamesOK.removeItem h.piles h.names r).1

theorem Good.run {f : Flow ι γ δ} (h : Good f) (sub : γ → γ → Bool) (ops : List (Op ι γ δ)) : Good (run sub f ops) := by
  induction ops generalizing f with
  | nil => exact h
  | cons op ops ih => exact ih (h.step sub op)

/-! ### Construction -/

theorem buildNames_fold (l : List (Prog ι)) (d : Dict String ι) (n : String) :
    (l.foldl register d).get? n =
      match l.reverse.find? (fun p => decide (truthy p.data.name = some n)) with
      | some p => some p.id
      | none => d.get? n := by
  induction l generalizing d with
  | nil => rfl
  | cons p l ih =>
    rw [List.foldl_cons, ih, List.reverse_cons, List.find?_append]
    cases hf : l.reverse.find? (fun p => decide (truthy p.data.name = some n)) with
    | some q => simp
    | none =>
      simp only [Option.none_or, List.find?_singleton, register]
      cases ht : truthy p.data.name with
      | none => simp
      | some m =>
        simp only [Dict.get?_set, Option.some.injEq]
        by_cases e : m = n <;> simp [e]

theorem buildNames_wf (l : List (Prog ι)) : (buildNames l).WF := by
  unfold buildNames
  have : ∀ (d : Dict String ι), d.WF → Dict.WF (l.foldl register d) := by
    induction l with
    | nil => intro d h; exact h
    | cons p l ih =>
      intro d h
      rw [List.foldl_cons]
      exact ih _ (register_wf h p)
  exact this [] List.nodup_nil

theorem not_missing {items : Pile ι γ δ} (h : Pile.Inv items) {l : List ι} (hm : missing items l = false) :
    ∀ x ∈ l, x ∈ items.items.keys := by
  intro x hx
  simp only [missing, List.any_eq_false] at hm
  have := hm x hx
  simp only [Bool.not_eq_true, Bool.not_eq_false', decide_eq_true_eq] at this
  exact (h.mem_iff x).1 this

/-- A successful construction: consistent piles, the given progressions in order, integrity. -/
theorem mk'_ok {items : Pile ι γ δ} {ps : List (Prog ι)} {f : Flow ι γ δ} (hi : Pile.Inv items)
    (h : mk' items ps = .ok f) :
    PInv f ∧ f.items = items ∧ Pile.abs f.progs = ps ∧ f.names = buildNames ps ∧ Integrity f := by
  unfold mk' at h
  split at h
  · cases h
  · next pp hpp =>
    have hs := Pile.addAll_spec anySub (Pile.inv_empty none false none) _ pp hpp
    have habs : Pile.abs pp = ps := by
      have := hs.2.2.2.2
      simp only [Pile.abs, List.filterMap_nil, List.map_nil, List.nil_append] at this
      exact (List.map_inj_right (fun _ _ h => Option.some.inj h)).1 this
    rw [Pile.iter_eq hs.1, habs] at h
    simp only at h
    split at h
    · cases h
    · next hm =>
      cases h
      refine ⟨⟨hi, hs.1⟩, rfl, habs, rfl, ?_⟩
      intro u p hp x hx
      have hid := hs.1.ids u p hp
      have hmem : p ∈ ps := by
        rw [← habs, Pile.mem_abs hs.1, hid]; exact hp
      simp only [Bool.not_eq_true, List.any_eq_false] at hm
      exact not_missing hi (hm p hmem) x hx

/-- Names given at construction are pairwise distinct (empty and missing names do not count). -/
def DistinctNames (ps : List (Prog ι)) : Prop :=
  (ps.filterMap (fun p => truthy p.data.name)).Nodup

theorem filterMap_nodup_inj {A B : Type} {f : A → Option B} {l : List A} (h : (l.filterMap f).Nodup) {a b : A} {c : B}
    (ha : a ∈ l) (hb : b ∈ l) (hac : f a = some c) (hbc : f b = some c) : a = b := by
  induction l with
  | nil => cases ha
  | cons x l ih =>
    simp only [List.filterMap_cons] at h
    rcases List.mem_cons.1 ha with rfl | ha' <;> rcases List.mem_cons.1 hb with rfl | hb'
    · rfl
    · simp only [hac, List.nodup_cons] at h
      exact absurd (List.mem_filterMap.2 ⟨b, hb', hbc⟩) h.1
    · simp only [hbc, List.nodup_cons] at h
      exact absurd (List.mem_filterMap.2 ⟨a, ha', hac⟩) h.1
    · apply ih _ ha' hb'
      split at h
      · exact h
      · exact (List.nodup_cons.1 h).2

theorem mk'_good {items : Pile ι γ δ} {ps : List (Prog ι)} {f : Flow ι γ δ} (hi : Pile.Inv items)
    (h : mk' items ps = .ok f) (hd : DistinctNames ps) : Good f := by
  obtain ⟨h1, h2, h3, h4, h5⟩ := mk'_ok hi h
  refine ⟨h1, by rw [h4]; exact buildNames_wf ps, ?_⟩
  intro n u
  rw [h4]
  unfold buildNames
  rw [buildNames_fold]
  have hget : ∀ p, p ∈ ps ↔ f.progs.items.get? p.id = some p := by
    intro p; rw [← h3]; exact Pile.mem_abs h1.progs p
  constructor
  · intro hf
    split at hf
    · next p hp =>
      cases hf
      have hm := List.mem_of_find?_eq_some hp
      have ht := List.find?_some hp
      simp only [decide_eq_true_eq] at ht
      exact ⟨p, (hget p).1 (by simpa using hm), ht⟩
    · cases hf
  · rintro ⟨p, hp, ht⟩
    have hid := h1.progs.ids u p hp
    have hm : p ∈ ps := (hget p).2 (by rw [hid]; exact hp)
    cases hf : ps.reverse.find? (fun p => decide (truthy p.data.name = some n)) with
    | none =>
      rw [List.find?_eq_none] at hf
      have := hf p (by simpa using hm)
      simp [ht] at this
    | some q =>
      have hqm : q ∈ ps := by simpa using List.mem_of_find?_eq_some hf
      have hqt := List.find?_some hf
      simp only [decide_eq_true_eq] at hqt
      have := filterMap_nodup_inj hd hm hqm ht hqt
      subst this
      simp [hid]

/-! ### Integrity -/

theorem Integrity.addProgression {f : Flow ι γ δ} (h : PInv f) (hI : Integrity f) (p : Prog ι) :
    Integrity (addProgression f p).1 := by
  rcases addProgression_cases f p with ⟨e, he⟩ | ⟨_, hm, hk, he⟩
  · rw [he]; exact hI
  · rw [he]
    intro u q hq x hx
    simp only [Dict.get?_set] at hq
    split at hq
    · cases hq
      exact not_missing h.items hm x hx
    · exact hI u q hq x hx

theorem Integrity.removeById {f : Flow ι γ δ} (h : PInv f) (hI : Integrity f) (r : Ref ι) :
    Integrity (removeById f r).1 := by
  cases r with
  | none => exact hI
  | some u =>
    simp only [Flow.removeById]
    split
    · exact hI
    · next p hp =>
      rw [dropProgression_ok h hp]
      intro v q hq
      simp only [Dict.get?_del h.progs.wf] at hq
      split at hq
      · cases hq
      · exact hI v q hq

theorem Integrity.removeProgression {f : Flow ι γ δ} (h : PInv f) (hI : Integrity f) (k : FKey ι) :
    Integrity (removeProgression f k).1 := by
  cases k with
  | ref r => exact Integrity.removeById h hI r
  | str s =>
    simp only [Flow.removeProgression]
    split
    · next u hu =>
      split
      · exact hI
      · next p hp =>
        rw [dropProgression_ok h hp]
        intro v q hq
        simp only [Dict.get?_del h.progs.wf] at hq
        split at hq
        · cases hq
        · exact hI v q hq
    · exact Integrity.removeById h hI _

theorem Integrity.addItem {f : Flow ι γ δ} (h : PInv f) (hI : Integrity f) (sub : γ → γ → Bool) (a : Pile.Arg ι γ δ)
    (ps : List (ProgArg ι)) : Integrity (addItem sub f a ps).1 := by
  unfold Flow.addItem
  rcases Pile.add_cases sub f.items a with ⟨e, he⟩ | ⟨x, rfl, hk, he⟩
  · rw [he]; exact hI
  · rw [he]
    simp only
    have h' : PInv { f with items := { f.items with items := f.items.items.set x.id x, order := f.items.order ++ [x.id] } } :=
      ⟨(Pile.abs_add h.items x hk).1, h.progs⟩
    obtain ⟨h1, h2, h3, h4, h5⟩ := appendAll_spec x.id ps _ h'
    intro u p hp y hy
    rw [h1]
    show y ∈ (f.items.items.set x.id x).keys
    rw [Dict.mem_keys_set]
    obtain ⟨k, hk⟩ := h5 u
    rw [hk] at hp
    simp only [Option.map_eq_some_iff] at hp
    obtain ⟨q, hq, rfl⟩ := hp
    simp only [upd, List.mem_append, List.mem_replicate] at hy
    rcases hy with hy | ⟨-, rfl⟩
    · exact Or.inr (hI u q hq y hy)
    · exact Or.inl rfl

theorem Integrity.removeItem {f : Flow ι γ δ} (h : PInv f) (hI : Integrity f) (uid : ι)
    (hc : ∀ u p, f.progs.items.get? u = some p → p.data.order.count uid ≤ 1) :
    Integrity (removeItem f (some uid)).1 := by
  obtain ⟨qq, h1, h2, h3, h4⟩ := removeItem_eq h uid
  rw [h4]
  intro u p hp y hy
  replace hp : qq.items.get? u = some p := hp
  rw [h3 u] at hp
  simp only [Option.map_eq_some_iff] at hp
  obtain ⟨q, hq, rfl⟩ := hp
  replace hy : y ∈ dropFrom uid q.data.order := hy
  have hcount := hc u q hq
  have hyo : y ∈ q.data.order ∧ y ≠ uid := by
    unfold dropFrom at hy
    split at hy
    · refine ⟨List.mem_of_mem_erase hy, ?_⟩
      rintro rfl
      have := List.count_pos_iff.2 hy
      rw [List.count_erase_self] at this
      omega
    · next hn => exact ⟨hy, by rintro rfl; exact hn hy⟩
  have hin := hI u q hq y hyo.1
  show y ∈ (Pile.remove f.items (some uid)).1.items.keys
  cases hg : f.items.items.get? uid with
  | none => rw [Pile.remove_absent hg]; exact hin
  | some x =>
    rw [Pile.remove_ok h.items hg]
    show y ∈ (f.items.items.del uid).keys
    rw [Dict.mem_keys_del h.items.wf]
    exact ⟨hyo.2, hin⟩

end Flow

end Verif
