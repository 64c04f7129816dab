import Verif.Props.Flows
import Verif.Lemmas.Flow

/-! # C307: what one call does to its flow among several flows is what the model of a single flow says -/

set_option linter.unusedSectionVars false
set_option linter.unusedSimpArgs false
set_option linter.unusedVariables false

namespace Verif.Flows

/-- Flow `i` of the world is the flow `f`: the same items and progressions in the same order, the same names and orders of the progressions, the same index of names. -/
structure View (w : World) (i : Nat) (f : Flow Nat Unit Unit) : Prop where
  inv : Flow.PInv f
  itemsFree : f.items.itemType = none
  progsFree : f.progs.itemType = none
  items : f.items.order = w.items (w.flow i).items
  progs : f.progs.order = w.progs (w.flow i).progs
  data : ∀ p ∈ w.progs (w.flow i).progs, f.progs.items.get? p = some ⟨p, (), ⟨w.name p, w.order p⟩⟩
  names : f.names = (w.flow i).names

/-- The progression object as the model of a single flow has it. -/
def obj (w : World) (p : Nat) : Flow.Prog Nat := ⟨p, (), ⟨w.name p, w.order p⟩⟩

/-- A reference to a progression as a key. -/
def keyOf : Ref → Flow.FKey Nat
  | .inst p => .ref (some p)
  | .id p => .ref (some p)
  | .text s => .str ⟨s, none⟩

/-- A reference to a progression as an argument of `add_item`: an instance is one of the progressions of the flow or some other object. -/
def argOf (w : World) (i : Nat) : Ref → Flow.ProgArg Nat
  | .inst p => if p ∈ w.progs (w.flow i).progs then .member p else .foreign
  | .id p => .key (.ref (some p))
  | .text s => .key (.str ⟨s, none⟩)

/-- The call in the model of a single flow. -/
def opOf (w : World) (i : Nat) : Op → Flow.Op Nat Unit Unit
  | .addProg p => .addProgression (obj w p)
  | .removeProg r => .removeProgression (keyOf r)
  | .addItem x rs => .addItem (some ⟨x, (), ()⟩) (rs.map (argOf w i))
  | .removeItem x => .removeItem (some x)

/-- The outcome without the value that is returned. -/
def plain {α : Type} : Except Exc α → Except Exc Unit
  | .ok _ => .ok ()
  | .error e => .error e

theorem truthy_def (n : Option String) : Flow.truthy n = if n.getD "" = "" then none else some (n.getD "") := by
  cases n with
  | none => simp [Flow.truthy, Pile.truthyName]
  | some s => by_cases h : s = "" <;> simp [Flow.truthy, Pile.truthyName, h]

section
variable {w : World} {i : Nat} {f : Flow Nat Unit Unit}

theorem View.mem_items (v : View w i f) (x : Nat) : x ∈ f.items.items.keys ↔ x ∈ w.items (w.flow i).items := by
  rw [← v.inv.items.mem_iff, v.items]
theorem View.mem_progs (v : View w i f) (x : Nat) : x ∈ f.progs.items.keys ↔ x ∈ w.progs (w.flow i).progs := by
  rw [← v.inv.progs.mem_iff, v.progs]
theorem View.get_some (v : View w i f) {p : Nat} (h : p ∈ w.progs (w.flow i).progs) : f.progs.items.get? p = some (obj w p) := v.data p h
theorem View.get_none (v : View w i f) {p : Nat} (h : p ∉ w.progs (w.flow i).progs) : f.progs.items.get? p = none :=
  (Dict.get?_eq_none_iff _ _).2 (fun k => h ((v.mem_progs p).1 k))

theorem nameTaken_eq (v : View w i f) (p : Nat) : Flow.nameTaken f.names (obj w p) = taken (w.flow i) (w.name p) := by
  unfold Flow.nameTaken
  rw [show (obj w p).data.name = w.name p from rfl, truthy_def, v.names]
  by_cases h : (w.name p).getD "" = ""
  · simp [taken, h]
  · simp [taken, h]

theorem register_eq (v : View w i f) (p : Nat) : Flow.register f.names (obj w p) = register (w.flow i).names (w.name p) p := by
  unfold Flow.register
  rw [show (obj w p).data.name = w.name p from rfl, truthy_def, v.names]
  by_cases h : (w.name p).getD "" = ""
  · simp [register, h]
  · simp [register, h, obj]

theorem unregister_eq (v : View w i f) (p : Nat) : Flow.unregister f.names (obj w p) = unregister (w.flow i).names (w.name p) := by
  unfold Flow.unregister
  rw [show (obj w p).data.name = w.name p from rfl, truthy_def, v.names]
  by_cases h : (w.name p).getD "" = ""
  · simp [unregister, h]
  · simp only [unregister, h, if_false]
    by_cases k : (w.flow i).names.has ((w.name p).getD "") = true
    · simp [k]
    · rw [if_neg k, Dict.del_of_notMem ((Dict.has_eq_false_iff _ _).1 (Bool.eq_false_iff.2 k))]

theorem missing_eq (v : View w i f) (l : List Nat) : Flow.missing f.items l = !l.all (fun x => (w.itemsOf i).contains x) := by
  unfold Flow.missing Pile.keys World.itemsOf
  rw [v.items, List.any_eq_not_all_not]
  simp

/-! ## The calls -/

theorem addProg_view (v : View w i f) (p : Nat) :
    View (addProg w i p).1 i (Flow.addProgression f (obj w p)).1 ∧ (addProg w i p).2 = (Flow.addProgression f (obj w p)).2 := by
  unfold Flow.addProgression addProg
  rw [nameTaken_eq v, show (obj w p).data.order = w.order p from rfl, missing_eq v]
  by_cases h1 : taken (w.flow i) (w.name p) = true
  · rw [if_pos h1, if_pos h1]; exact ⟨v, rfl⟩
  rw [if_neg h1, if_neg h1]
  by_cases h2 : (!(w.order p).all (fun x => (w.itemsOf i).contains x)) = true
  · rw [if_pos h2, if_pos h2]; exact ⟨v, rfl⟩
  rw [if_neg h2, if_neg h2]
  have hv : Pile.validType Flow.anySub f.progs.itemType f.progs.strict (obj w p) = true := by rw [v.progsFree]; rfl
  by_cases h3 : p ∈ w.progs (w.flow i).progs
  · have hk : f.progs.items.has (obj w p).id = true := by
      unfold Dict.has; rw [show (obj w p).id = p from rfl, v.get_some h3]; rfl
    have ha : Pile.add Flow.anySub f.progs (some (obj w p)) = (f.progs, .error .exists_) := by
      unfold Pile.add; simp only [hv, hk]; rfl
    rw [ha, if_pos (by simpa [World.progsOf] using h3)]
    exact ⟨v, rfl⟩
  · have hk : f.progs.items.has (obj w p).id = false := by
      unfold Dict.has; rw [show (obj w p).id = p from rfl, v.get_none h3]; rfl
    have ha : Pile.add Flow.anySub f.progs (some (obj w p)) = ({ f.progs with items := f.progs.items.set p (obj w p), order := f.progs.order ++ [p] }, .ok ()) := by
      unfold Pile.add; simp only [hv, hk]; rfl
    rw [ha, if_neg (by simpa [World.progsOf] using h3)]
    refine ⟨?_, rfl⟩
    have hp : p ∉ f.progs.items.keys := fun k => h3 ((v.mem_progs p).1 k)
    have ht := (Pile.abs_add v.inv.progs (obj w p) hp).1
    dsimp only
    refine ⟨⟨v.inv.items, ht⟩, v.itemsFree, v.progsFree, ?_, ?_, ?_, ?_⟩
    · simp [World.setNames, World.setProgs, upd, v.items]
    · simp [World.setNames, World.setProgs, upd, v.progs, World.progsOf]
    · intro q hq
      simp only [World.setNames, World.setProgs, upd, World.progsOf, if_true, List.mem_append, List.mem_singleton] at hq
      show (f.progs.items.set p (obj w p)).get? q = some (obj w q)
      rw [Dict.get?_set]
      by_cases e : p = q
      · subst e; simp
      · rw [if_neg e]; exact v.get_some (hq.resolve_right (fun k => e k.symm))
    · rw [register_eq v]; simp [World.setNames, World.setProgs, upd]

/-- The flow without a progression, and its index of names replaced. -/
theorem drop_view (v : View w i f) {p : Nat} (n : Dict String Nat) (h : p ∈ w.progs (w.flow i).progs) :
    View ((w.dropProg i p).setNames i n) i { f with names := n, progs := { f.progs with items := f.progs.items.del p, order := f.progs.order.erase p } } := by
  have ht := (Pile.abs_del v.inv.progs p).1
  refine ⟨⟨v.inv.items, ht⟩, v.itemsFree, v.progsFree, ?_, ?_, ?_, ?_⟩
  · simp [World.setNames, World.dropProg, World.setProgs, upd, v.items]
  · simp only [World.setNames, World.dropProg, World.setProgs, upd, World.progsOf, if_true]
    rw [List.Nodup.erase_eq_filter v.inv.progs.nodup, v.progs]
  · intro q hq
    simp only [World.setNames, World.dropProg, World.setProgs, upd, World.progsOf, if_true, List.mem_filter] at hq
    show (f.progs.items.del p).get? q = some (obj w q)
    have e : ¬ p = q := by rintro rfl; simp at hq
    rw [Dict.get?_del v.inv.progs.wf, if_neg e]
    exact v.get_some hq.1
  · simp [World.setNames, World.dropProg, World.setProgs, upd]

theorem removeById_view (v : View w i f) (p : Nat) :
    View (removeById w i p).1 i (Flow.removeById f (some p)).1 ∧ (removeById w i p).2 = plain (Flow.removeById f (some p)).2 := by
  unfold Flow.removeById removeById
  by_cases h : p ∈ w.progs (w.flow i).progs
  · rw [if_pos (by simpa [World.progsOf] using h)]
    simp only [v.get_some h, Flow.dropProgression_ok v.inv (v.get_some h)]
    rw [unregister_eq v]
    exact ⟨drop_view v _ h, rfl⟩
  · rw [if_neg (by simpa [World.progsOf] using h)]
    simp only [v.get_none h]
    exact ⟨v, rfl⟩

theorem removeProg_view (v : View w i f) (r : Ref) :
    View (removeProg w i r).1 i (Flow.removeProgression f (keyOf r)).1 ∧ (removeProg w i r).2 = plain (Flow.removeProgression f (keyOf r)).2 := by
  cases r with
  | inst p => exact removeById_view v p
  | id p => exact removeById_view v p
  | text s =>
    unfold removeProg keyOf Flow.removeProgression indexed textOf idOf
    dsimp only
    cases hn : (w.flow i).names.get? s with
    | none =>
      have hf : f.names.get? s = none := by rw [v.names]; exact hn
      simp only [hf, Flow.removeById]
      exact ⟨v, rfl⟩
    | some p =>
      have hf : f.names.get? s = some p := by rw [v.names]; exact hn
      simp only [hf, removeNamed]
      by_cases h : p ∈ w.progs (w.flow i).progs
      · rw [if_pos (by simpa [World.progsOf] using h)]
        simp only [v.get_some h, Flow.dropProgression_ok v.inv (v.get_some h)]
        rw [v.names]
        exact ⟨drop_view v _ h, rfl⟩
      · rw [if_neg (by simpa [World.progsOf] using h)]
        simp only [v.get_none h]
        refine ⟨⟨⟨v.inv.items, v.inv.progs⟩, v.itemsFree, v.progsFree, ?_, ?_, ?_, ?_⟩, rfl⟩
        · simp [World.setNames, upd, v.items]
        · simp [World.setNames, upd, v.progs]
        · intro q hq
          simp only [World.setNames, upd, if_true] at hq
          exact v.get_some hq
        · simp [World.setNames, upd, v.names]

theorem append_view (v : View w i f) {p : Nat} (x : Nat) : View (w.append p x) i { f with progs := Flow.modify f.progs p (· ++ [x]) } := by
  refine ⟨⟨v.inv.items, Flow.modify_inv v.inv.progs p (· ++ [x])⟩, v.itemsFree, ?_, v.items, ?_, ?_, v.names⟩
  · show (Flow.modify f.progs p (· ++ [x])).itemType = none
    unfold Flow.modify; split <;> exact v.progsFree
  · show (Flow.modify f.progs p (· ++ [x])).order = _
    rw [Flow.modify_order]; exact v.progs
  · intro q hq
    show (Flow.modify f.progs p (· ++ [x])).items.get? q = _
    rw [Flow.modify_get?, v.get_some hq]
    by_cases e : p = q
    · subst e; simp [World.append, upd, Flow.upd, obj]
    · simp [World.append, upd, Flow.upd, obj, e, Ne.symm e]

theorem append_foreign (v : View w i f) {p : Nat} (x : Nat) (h : p ∉ w.progs (w.flow i).progs) : View (w.append p x) i f := by
  refine ⟨v.inv, v.itemsFree, v.progsFree, v.items, v.progs, ?_, v.names⟩
  intro q hq
  have e : q ≠ p := by rintro rfl; exact h hq
  rw [v.get_some hq]; simp [World.append, upd, obj, e]

theorem present_view (v : View w i f) (p : Nat) : (p ∈ w.progs (w.flow i).progs ∧ present w i p = .ok p) ∨ (p ∉ w.progs (w.flow i).progs ∧ present w i p = .error .notFound) := by
  unfold present
  by_cases h : p ∈ w.progs (w.flow i).progs
  · rw [if_pos (by simpa [World.progsOf] using h)]; exact .inl ⟨h, rfl⟩
  · rw [if_neg (by simpa [World.progsOf] using h)]; exact .inr ⟨h, rfl⟩

/-- A key finds the same progression, or the same exception, in both. -/
theorem find_view (v : View w i f) (r : Ref) : (∃ p, p ∈ w.progs (w.flow i).progs ∧ find w i r = .ok p ∧ Flow.getProgression f (keyOf r) = .ok (obj w p)) ∨
    (∃ e, find w i r = .error e ∧ Flow.getProgression f (keyOf r) = .error e) := by
  cases r with
  | inst p =>
    rcases present_view v p with ⟨h, e⟩ | ⟨h, e⟩
    · exact .inl ⟨p, h, e, by simp only [keyOf, Flow.getProgression, v.get_some h]⟩
    · exact .inr ⟨_, e, by simp only [keyOf, Flow.getProgression, v.get_none h]⟩
  | id p =>
    rcases present_view v p with ⟨h, e⟩ | ⟨h, e⟩
    · exact .inl ⟨p, h, e, by simp only [keyOf, Flow.getProgression, v.get_some h]⟩
    · exact .inr ⟨_, e, by simp only [keyOf, Flow.getProgression, v.get_none h]⟩
  | text s =>
    cases hn : (w.flow i).names.get? s with
    | none =>
      have hf : f.names.get? s = none := by rw [v.names]; exact hn
      exact .inr ⟨.keyError, by simp only [find, hn], by simp only [keyOf, Flow.getProgression, hf]⟩
    | some p =>
      have hf : f.names.get? s = some p := by rw [v.names]; exact hn
      rcases present_view v p with ⟨h, e⟩ | ⟨h, e⟩
      · exact .inl ⟨p, h, by simp only [find, hn, e], by simp only [keyOf, Flow.getProgression, hf, v.get_some h]⟩
      · exact .inr ⟨_, by simp only [find, hn]; exact e, by simp only [keyOf, Flow.getProgression, hf, v.get_none h]⟩
end

theorem argOf_append (w : World) (i p x : Nat) : argOf (w.append p x) i = argOf w i := by
  funext r; cases r <;> rfl

theorem appendAll_view {i : Nat} (x : Nat) (rs : List Ref) : ∀ {w : World} {f : Flow Nat Unit Unit}, View w i f →
    View (appendAll w i x rs).1 i (Flow.appendAll f x (rs.map (argOf w i))).1 ∧ (appendAll w i x rs).2 = (Flow.appendAll f x (rs.map (argOf w i))).2 := by
  have key : ∀ (r : Ref) (rs : List Ref), (∀ p, r ≠ .inst p) → ∀ {w : World} {f : Flow Nat Unit Unit}, View w i f →
      (∀ {w : World} {f : Flow Nat Unit Unit}, View w i f →
        View (appendAll w i x rs).1 i (Flow.appendAll f x (rs.map (argOf w i))).1 ∧ (appendAll w i x rs).2 = (Flow.appendAll f x (rs.map (argOf w i))).2) →
      View (appendAll w i x (r :: rs)).1 i (Flow.appendAll f x (.key (keyOf r) :: rs.map (argOf w i))).1 ∧
        (appendAll w i x (r :: rs)).2 = (Flow.appendAll f x (.key (keyOf r) :: rs.map (argOf w i))).2 := by
    intro r rs hr w f v ih
    have ht : target w i r = find w i r := by
      cases r with
      | inst p => exact absurd rfl (hr p)
      | id p => rfl
      | text s => rfl
    rcases find_view v r with ⟨p, hp, h1, h2⟩ | ⟨e, h1, h2⟩
    · simp only [appendAll, ht, h1, Flow.appendAll, h2]
      have q := ih (append_view v (p := p) x)
      rw [argOf_append] at q
      exact q
    · simp only [appendAll, ht, h1, Flow.appendAll, h2]
      exact ⟨v, trivial⟩
  induction rs with
  | nil => intro w f v; exact ⟨v, rfl⟩
  | cons r rs ih =>
    intro w f v
    cases r with
    | inst p =>
      rw [List.map_cons]
      by_cases h : p ∈ w.progs (w.flow i).progs
      · simp only [argOf, if_pos h, appendAll, target, Flow.appendAll]
        have q := ih (append_view v (p := p) x)
        rw [argOf_append] at q
        exact q
      · simp only [argOf, if_neg h, appendAll, target, Flow.appendAll]
        have q := ih (append_foreign v x h)
        rw [argOf_append] at q
        exact q
    | id p => exact key (.id p) rs (fun _ h => nomatch h) v ih
    | text s => exact key (.text s) rs (fun _ h => nomatch h) v ih

section
variable {w : World} {i : Nat} {f : Flow Nat Unit Unit}

theorem addItem_view (sub : Unit → Unit → Bool) (v : View w i f) (x : Nat) (rs : List Ref) :
    View (addItem w i x rs).1 i (Flow.addItem sub f (some ⟨x, (), ()⟩) (rs.map (argOf w i))).1 ∧
      (addItem w i x rs).2 = (Flow.addItem sub f (some ⟨x, (), ()⟩) (rs.map (argOf w i))).2 := by
  have hv : Pile.validType sub f.items.itemType f.items.strict ⟨x, (), ()⟩ = true := by rw [v.itemsFree]; rfl
  unfold addItem Flow.addItem
  by_cases h : x ∈ w.items (w.flow i).items
  · have hk : f.items.items.has x = true := by
      unfold Dict.has; rw [Dict.get?_isSome_iff]; exact (v.mem_items x).2 h
    have ha : Pile.add sub f.items (some ⟨x, (), ()⟩) = (f.items, .error .exists_) := by
      unfold Pile.add; simp only [hv, hk]; rfl
    rw [ha, if_pos (by simpa [World.itemsOf] using h)]
    exact ⟨v, rfl⟩
  · have hx : x ∉ f.items.items.keys := fun k => h ((v.mem_items x).1 k)
    have hk : f.items.items.has x = false := (Dict.has_eq_false_iff _ _).2 hx
    have ha : Pile.add sub f.items (some ⟨x, (), ()⟩) = ({ f.items with items := f.items.items.set x ⟨x, (), ()⟩, order := f.items.order ++ [x] }, .ok ()) := by
      unfold Pile.add; simp only [hv, hk]; rfl
    rw [ha, if_neg (by simpa [World.itemsOf] using h)]
    dsimp only
    have hw : View (w.setItems i (w.itemsOf i ++ [x])) i { f with items := { f.items with items := f.items.items.set x ⟨x, (), ()⟩, order := f.items.order ++ [x] } } := by
      refine ⟨⟨(Pile.abs_add v.inv.items ⟨x, (), ()⟩ hx).1, v.inv.progs⟩, v.itemsFree, v.progsFree, ?_, v.progs, v.data, v.names⟩
      simp [World.setItems, World.itemsOf, upd, v.items]
    exact appendAll_view x rs hw

theorem removeItem_view (v : View w i f) (x : Nat) :
    View (removeItem w i x).1 i (Flow.removeItem f (some x)).1 ∧ (removeItem w i x).2 = plain (Flow.removeItem f (some x)).2 := by
  obtain ⟨qq, h1, h2, h3, h4⟩ := Flow.removeItem_eq v.inv x
  have ht : qq.itemType = none := by
    have := congrArg (fun r => r.1.progs.itemType) h4
    simp only [Flow.removeItem] at this
    have key : ∀ (us : List Nat) (pp : Pile Nat Unit (ProgData Nat)), pp.itemType = none → (Flow.dropEverywhere pp x us).1.itemType = none := by
      intro us
      induction us with
      | nil => intro pp h; exact h
      | cons u us ih =>
        intro pp h
        unfold Flow.dropEverywhere
        cases hg : pp.items.get? u with
        | none => exact h
        | some q => exact ih _ (by unfold Flow.modify; rw [hg]; exact h)
    have k := key f.progs.order f.progs v.progsFree
    cases hd : Flow.dropEverywhere f.progs x f.progs.order with
    | mk pp r =>
      rw [hd] at this k
      cases r with
      | error e => rw [← this]; exact k
      | ok u => rw [← this]; exact k
  have hs : ∀ p ∈ w.progs (w.flow i).progs, qq.items.get? p = some ⟨p, (), ⟨w.name p, (w.order p).erase x⟩⟩ := by
    intro p hp
    rw [h3, v.get_some hp]
    simp only [Option.map_some, Flow.upd, obj, Flow.dropFrom]
    by_cases e : x ∈ w.order p
    · rw [if_pos e]
    · rw [if_neg e, List.erase_of_not_mem e]
  rw [h4]
  unfold removeItem
  by_cases h : x ∈ w.items (w.flow i).items
  · rw [if_pos (by simpa [World.itemsOf] using h)]
    obtain ⟨y, hy⟩ := Option.isSome_iff_exists.1 ((Dict.get?_isSome_iff _ _).2 ((v.mem_items x).2 h))
    rw [Pile.remove_ok v.inv.items hy]
    refine ⟨⟨⟨(Pile.abs_del v.inv.items x).1, h1⟩, v.itemsFree, ht, ?_, ?_, ?_, ?_⟩, rfl⟩
    · simp only [World.setItems, World.strip, World.itemsOf, upd, if_true]
      rw [List.Nodup.erase_eq_filter v.inv.items.nodup, v.items]
    · simp only [World.setItems, World.strip]; rw [h2, v.progs]
    · intro p hp
      simp only [World.setItems, World.strip] at hp
      simp only [World.setItems, World.strip, World.progsOf]
      have hc : (w.progs (w.flow i).progs).contains p = true := by simpa using hp
      simp only [hc, if_true]; exact hs p hp
    · exact v.names
  · rw [if_neg (by simpa [World.itemsOf] using h)]
    rw [Pile.remove_absent ((Dict.get?_eq_none_iff _ _).2 (fun k => h ((v.mem_items x).1 k)))]
    refine ⟨⟨⟨v.inv.items, h1⟩, v.itemsFree, ht, v.items, ?_, ?_, v.names⟩, rfl⟩
    · simp only [World.strip]; rw [h2, v.progs]
    · intro p hp
      simp only [World.strip] at hp
      simp only [World.strip, World.progsOf]
      have hc : (w.progs (w.flow i).progs).contains p = true := by simpa using hp
      simp only [hc, if_true]; exact hs p hp
end

theorem plain_map {α β : Type} (e : Except Exc α) (g : α → β) : plain (e.map g) = plain e := by cases e <;> rfl
theorem plain_unit (e : Except Exc Unit) : plain e = e := by cases e <;> rfl

/-- **C307.**  Among several flows, shared or not, a call on a flow does to that flow exactly what the model of a single flow says, with the same outcome. -/
theorem C307_single (sub : Unit → Unit → Bool) {w : World} {i : Nat} {f : Flow Nat Unit Unit} (v : View w i f) (op : Op) :
    View (step w i op).1 i (Flow.step sub f (opOf w i op)).1 ∧ (step w i op).2 = plain (Flow.step sub f (opOf w i op)).2 := by
  cases op with
  | addProg p =>
    have r := addProg_view v p
    refine ⟨r.1, ?_⟩
    show (addProg w i p).2 = plain (Except.map _ (Flow.addProgression f (obj w p)).2)
    rw [plain_map, plain_unit]; exact r.2
  | removeProg k =>
    have r := removeProg_view v k
    refine ⟨r.1, ?_⟩
    show (removeProg w i k).2 = plain (Except.map _ (Flow.removeProgression f (keyOf k)).2)
    rw [plain_map]; exact r.2
  | addItem x rs =>
    have r := addItem_view sub v x rs
    refine ⟨r.1, ?_⟩
    show (addItem w i x rs).2 = plain (Except.map _ (Flow.addItem sub f (some ⟨x, (), ()⟩) (rs.map (argOf w i))).2)
    rw [plain_map, plain_unit]; exact r.2
  | removeItem x =>
    have r := removeItem_view v x
    refine ⟨r.1, ?_⟩
    show (removeItem w i x).2 = plain (Except.map _ (Flow.removeItem f (some x)).2)
    rw [plain_map]; exact r.2

/-- The calls on flow `g` in a history, in the model of a single flow. -/
def calls (g : Nat) (w : World) : List (Nat × Op) → List (Flow.Op Nat Unit Unit)
  | [] => []
  | c :: h => if c.1 = g then opOf w c.1 c.2 :: calls g (step w c.1 c.2).1 h else calls g (step w c.1 c.2).1 h

theorem View.agree {o : Owners} {g : Nat} {w v : World} {f : Flow Nat Unit Unit} (s : Separate o v) (a : Agree o g w v) (h : View v g f) : View w g f := by
  refine ⟨h.inv, h.itemsFree, h.progsFree, ?_, ?_, ?_, ?_⟩
  · rw [a.flow, a.items _ (s.items g)]; exact h.items
  · rw [a.flow, a.progs _ (s.progs g)]; exact h.progs
  · intro p hp
    rw [a.flow, a.progs _ (s.progs g)] at hp
    rw [a.name p (s.listed g p hp), a.order p (s.listed g p hp)]; exact h.data p hp
  · rw [a.flow]; exact h.names

/-- **C307.**  In any history of calls on flows that share nothing, every flow behaves as the model of a single flow does for the calls on it alone. -/
theorem C307_history (sub : Unit → Unit → Bool) {o : Owners} (g : Nat) (h : List (Nat × Op)) : ∀ {w : World} {f : Flow Nat Unit Unit}, Separate o w → (∀ c ∈ h, Own o c.1 c.2) → View w g f →
    View (run w h) g (Flow.run sub f (calls g w h)) := by
  induction h with
  | nil => intro w f _ _ v; exact v
  | cons c h ih =>
    intro w f s ho v
    have hc := ho c List.mem_cons_self
    have ht : ∀ c ∈ h, Own o c.1 c.2 := fun c' m => ho c' (List.mem_cons_of_mem _ m)
    have hs := step_sep s c.1 hc
    by_cases e : c.1 = g
    · simp only [calls, e, if_true]
      rw [e] at hs
      have r := ih hs ht (C307_single sub v c.2).1
      have hr : run w (c :: h) = run (step w g c.2).1 h := by rw [← e]; rfl
      rw [hr]; exact r
    · simp only [calls, e, if_false]
      exact ih hs ht (View.agree s (step_off s e hc) v)

/-- A flow with an item and a named progression among two flows. -/
example : View apart 0 { items := { items := [(10, ⟨10, (), ()⟩)], order := [10] }, progs := { items := [(5, ⟨5, (), ⟨some "a", [10]⟩⟩)], order := [5] }, names := [("a", 5)] } := by
  refine ⟨⟨⟨by unfold Dict.WF; decide, by decide, by intro u; simp [Dict.keys], ?_⟩, ⟨by unfold Dict.WF; decide, by decide, by intro u; simp [Dict.keys], ?_⟩⟩, rfl, rfl, by decide, by decide, ?_, by decide⟩
  · intro u x h
    simp only [Dict.get?_cons] at h
    split at h
    · next e => cases h; exact e
    · cases h
  · intro u x h
    simp only [Dict.get?_cons] at h
    split at h
    · next e => cases h; exact e
    · cases h
  · intro p hp
    have e : p = 5 := by
      have : apart.progs (apart.flow 0).progs = [5] := by decide
      rw [this] at hp; simpa using hp
    subst e; decide

end Verif.Flows
