import Verif.Model.FlowInit
import Verif.Props.ItemType
import Verif.Props.FlowSerial
import Verif.Props.FlowEdit

/-!
# C302: the type constraint given to a flow
-/

set_option linter.unusedSectionVars false
set_option linter.unusedSimpArgs false
set_option linter.unusedVariables false

namespace Verif.Flow

open ItemType (TypeArg Written Allowed flowType extractTypes)

variable {ι γ δ : Type} [DecidableEq ι] [DecidableEq γ]

/-- The flow keeps to the constraint: whatever is called on the flow, its progressions and its items pile, every item that can be got from it has an allowed class. -/
def KeepsTo (sub : γ → γ → Bool) (s : Bool) (t : Option (TypeArg γ)) (f : Flow ι γ δ) : Prop :=
  ∀ (as : List (FAct ι γ δ)) (u : ι) (x : Item ι γ δ), Pile.get (fRun sub f as).items (some u) false = .ok (some x) → Allowed sub s t x.cls

/-- A class is one of the classes of a list or, unless strict, a subclass of one. -/
def Among (sub : γ → γ → Bool) (s : Bool) (ts : List γ) (c : γ) : Prop := ∃ t ∈ ts, (s = true ∧ c = t) ∨ (s = false ∧ sub c t = true)

/-- The classes that a flow made from this `items` argument takes: for a pile those that the pile allows, for a serialised pile those that its dict names (all if it
names none), for a list that begins with a dict all classes; otherwise those written in `item_type`, all if nothing is written there. -/
def Takes {D : Type} (sub : γ → γ → Bool) (load : String → Option γ) (t : Option (TypeArg γ)) (s : Bool) (c : γ) : ItemsArg ι γ δ D → Prop
  | .pile p => p.itemType = none ∨ ∃ ts, p.itemType = some ts ∧ Among sub p.strict ts c
  | .dict d => d.body.itemType = none ∨ d.body.itemType = some [] ∨
      ∃ ns, d.body.itemType = some ns ∧ ∃ n ∈ ns, ∃ k, load n = some k ∧ Among sub d.body.strict [k] c
  | .dicts _ _ => True
  | .absent => Allowed sub s t c ∨ t = some (.list []) ∨ t = some (.set [])
  | .one _ => Allowed sub s t c ∨ t = some (.list []) ∨ t = some (.set [])
  | .list _ => Allowed sub s t c ∨ t = some (.list []) ∨ t = some (.set [])

/-- A pile that is handed over was made by `Pile(...)` and changed by its methods. -/
def Proper {D : Type} (sub : γ → γ → Bool) : ItemsArg ι γ δ D → Prop
  | .pile p => ∃ xs ts s o q ops, Pile.mk' sub xs ts s o = .ok q ∧ p = Pile.run sub q ops
  | _ => True

theorem empty_wt (sub : γ → γ → Bool) (ts : Option (List γ)) (s : Bool) (n : Option String) :
    Pile.WT sub ({ itemType := ts, strict := s, pname := n } : Pile ι γ δ) := ⟨List.nodup_nil, by intro u x hx; cases hx⟩

theorem addMembers_wt {D : Type} (sub : γ → γ → Bool) (dec : D → Except Exc (Item ι γ δ)) : ∀ (ms : List (D ⊕ Pile.Arg ι γ δ)) {p q : Pile ι γ δ},
    Pile.WT sub p → addMembers sub dec p ms = .ok q → Pile.WT sub q ∧ q.itemType = p.itemType ∧ q.strict = p.strict
  | [], p, q, h, hq => by simp only [addMembers, Except.ok.injEq] at hq; subst hq; exact ⟨h, rfl, rfl⟩
  | m :: ms, p, q, h, hq => by
    simp only [addMembers] at hq
    split at hq
    · cases hq
    · next a _ =>
      have h1 := h.add a
      split at hq
      · next p' heq =>
        rw [heq] at h1
        have := addMembers_wt sub dec ms h1.1 hq
        exact ⟨this.1, this.2.1.trans h1.2.1, this.2.2.trans h1.2.2⟩
      · cases hq

theorem addDecoded_wt {D : Type} (sub : γ → γ → Bool) (dec : D → Except Exc (Item ι γ δ)) : ∀ (ds : List D) {p q : Pile ι γ δ},
    Pile.WT sub p → Pile.addDecoded sub dec p ds = .ok q → Pile.WT sub q ∧ q.itemType = p.itemType ∧ q.strict = p.strict
  | [], p, q, h, hq => by simp only [Pile.addDecoded, Except.ok.injEq] at hq; subst hq; exact ⟨h, rfl, rfl⟩
  | d :: ds, p, q, h, hq => by
    simp only [Pile.addDecoded] at hq
    split at hq
    · cases hq
    · next x _ =>
      have h1 := h.add (some x)
      split at hq
      · next p' heq =>
        rw [heq] at h1
        have := addDecoded_wt sub dec ds h1.1 hq
        exact ⟨this.1, this.2.1.trans h1.2.1, this.2.2.trans h1.2.2⟩
      · cases hq

theorem validType_among (sub : γ → γ → Bool) (ts : Option (List γ)) (s : Bool) (x : Item ι γ δ) :
    Pile.validType sub ts s x = true ↔ ts = none ∨ ∃ l, ts = some l ∧ Among sub s l x.cls := by
  cases ts with
  | none => simp [Pile.validType]
  | some l =>
    cases s with
    | true => simp [Pile.validType, Among]
    | false => simp [Pile.validType, Among, List.any_eq_true]

theorem flowType_iff (sub : γ → γ → Bool) (t : Option (TypeArg γ)) (s : Bool) (x : Item ι γ δ) :
    Pile.validType sub (flowType t) s x = true ↔ Allowed sub s t x.cls ∨ t = some (.list []) ∨ t = some (.set []) := by
  cases t with
  | none => simp [flowType, Pile.validType, Allowed]
  | some a =>
    cases h : ItemType.truthy a with
    | true =>
      have h1 : flowType (some a) = ItemType.pileType (some a) := by simp [flowType, h, ItemType.pileType]
      rw [h1, ItemType.validType_iff]
      constructor
      · exact Or.inl
      · rintro (h | h | h)
        · exact h
        · cases h; cases ‹ItemType.truthy _ = true›
        · cases h; cases ‹ItemType.truthy _ = true›
    | false =>
      have h1 : flowType (some a) = none := by simp [flowType, h]
      rw [h1]
      simp only [Pile.validType, true_iff]
      cases a with
      | expr e => cases h
      | list es => cases es with
        | nil => exact Or.inr (Or.inl rfl)
        | cons _ _ => cases h
      | set es => cases es with
        | nil => exact Or.inr (Or.inr rfl)
        | cons _ _ => cases h

theorem loadAll_mem (load : String → Option γ) : ∀ (ns : List String) (ks : List γ), Pile.loadAll load ns = some ks →
    ∀ k, k ∈ ks ↔ ∃ n ∈ ns, load n = some k
  | [], ks, h, k => by simp only [Pile.loadAll, Option.some.injEq] at h; subst h; simp
  | n :: ns, ks, h, k => by
    simp only [Pile.loadAll] at h
    split at h
    · next c cs hc hcs =>
      cases h
      rw [List.mem_cons, loadAll_mem load ns cs hcs k]
      constructor
      · rintro (rfl | ⟨m, hm, hk⟩)
        · exact ⟨n, List.mem_cons_self, hc⟩
        · exact ⟨m, List.mem_cons_of_mem _ hm, hk⟩
      · rintro ⟨m, hm, hk⟩
        rcases List.mem_cons.1 hm with rfl | hm
        · rw [hc] at hk; cases hk; exact Or.inl rfl
        · exact Or.inr ⟨m, hm, hk⟩
    · cases h

theorem among_iff (sub : γ → γ → Bool) (s : Bool) (ks : List γ) (c : γ) : Among sub s ks c ↔ ∃ k ∈ ks, Among sub s [k] c := by
  simp [Among]

/-- The pile that the constructor makes is well typed, and takes the classes of `Takes`. -/
theorem itemsPile_takes {D P : Type} (sub : γ → γ → Bool) (C : Codec ι γ δ D P) (t : Option (TypeArg γ)) (s : Bool) (a : ItemsArg ι γ δ D)
    (hp : Proper sub a) {p : Pile ι γ δ} (h : itemsPile sub C t s a = .ok p) :
    Pile.WT sub p ∧ ∀ x : Item ι γ δ, Pile.validType sub p.itemType p.strict x = true ↔ Takes sub C.load t s x.cls a := by
  have hmk : ∀ (xs : List (Pile.Arg ι γ δ)), Pile.mk' sub xs (flowType t) s none = .ok p →
      Pile.WT sub p ∧ ∀ x : Item ι γ δ, Pile.validType sub p.itemType p.strict x = true ↔
        Allowed sub s t x.cls ∨ t = some (.list []) ∨ t = some (.set []) := by
    intro xs hx
    obtain ⟨h1, h2, h3⟩ := Pile.WT.mk' xs _ _ _ p hx
    exact ⟨h1, fun x => by rw [h2, h3]; exact flowType_iff sub t s x⟩
  cases a with
  | absent =>
    simp only [itemsPile] at h
    split at h
    · exact hmk [] h
    · next hn =>
      simp only [Except.ok.injEq] at h
      subst h
      have hf : flowType t = none := by
        cases hft : flowType t with
        | none => rfl
        | some l => simp [hft] at hn
      refine ⟨empty_wt sub none false none, fun x => ?_⟩
      have := flowType_iff sub t s x
      rw [hf] at this
      simpa [Pile.validType, Takes] using this
  | one x => exact hmk _ h
  | list xs => exact hmk _ h
  | pile q =>
    simp only [itemsPile, Except.ok.injEq] at h
    subst h
    obtain ⟨xs, ts, s', o, q0, ops, hq, rfl⟩ := hp
    exact ⟨((Pile.WT.mk' xs ts s' o q0 hq).1.run ops).1, fun x => validType_among sub _ _ x⟩
  | dicts d ds =>
    obtain ⟨h1, h2, h3⟩ := addMembers_wt sub C.dec _ (empty_wt sub none false none) h
    refine ⟨h1, fun x => ?_⟩
    rw [h2]
    simp [Pile.validType, Takes]
  | dict d =>
    simp only [itemsPile, pileFrom] at h
    split at h
    · simp only [Pile.fromDict] at h
      split at h
      · cases h
      · next ts hts =>
        split at h
        · cases h
        · obtain ⟨h1, h2, h3⟩ := addDecoded_wt sub C.dec _ (empty_wt sub _ _ _) h
          refine ⟨h1, fun x => ?_⟩
          rw [h2, h3, validType_among]
          simp only [Takes]
          cases hi : d.body.itemType with
          | none =>
            rw [hi] at hts
            simp only [Pile.itemTypeData, Pile.loadTypes, Except.ok.injEq] at hts
            simp [← hts]
          | some ns =>
            rw [hi] at hts
            cases ns with
            | nil =>
              simp only [Pile.itemTypeData, Pile.loadTypes, Except.ok.injEq] at hts
              simp [← hts]
            | cons n ns =>
              simp only [Pile.itemTypeData, Pile.loadTypes] at hts
              split at hts
              · next ks hks =>
                simp only [Except.ok.injEq] at hts
                subst hts
                simp only [reduceCtorEq, false_or, Option.some.injEq, exists_eq_left']
                rw [among_iff]
                constructor
                · rintro ⟨k, hk, ha⟩
                  obtain ⟨m, hm, hl⟩ := (loadAll_mem C.load _ _ hks k).1 hk
                  exact ⟨m, hm, k, hl, ha⟩
                · rintro ⟨m, hm, k, hl, ha⟩
                  exact ⟨k, (loadAll_mem C.load _ _ hks k).2 ⟨m, hm, hl⟩, ha⟩
              · cases hts
    · cases h

theorem mk'_items {ip : Pile ι γ δ} {progs : List (Prog ι)} {f : Flow ι γ δ} (h : mk' ip progs = .ok f) : f.items = ip := by
  simp only [mk'] at h
  split at h
  · cases h
  · split at h
    · cases h
    · split at h
      · cases h
      · cases h; rfl

theorem items_fRun (sub : γ → γ → Bool) (as : List (FAct ι γ δ)) (f : Flow ι γ δ) :
    ∃ pops, (fRun sub f as).items = Pile.run sub f.items pops := by
  induction as generalizing f with
  | nil => exact ⟨[], rfl⟩
  | cons a as ih =>
    obtain ⟨q, hq⟩ := ih (fStep sub f a)
    have h1 : ∃ r, (fStep sub f a).items = Pile.run sub f.items r := by
      cases a with
      | op o => exact items_step sub f o
      | rename u n => exact ⟨[], rfl⟩
      | edit u o => exact ⟨[], rfl⟩
      | items o => exact ⟨[o], rfl⟩
    obtain ⟨r, hr⟩ := h1
    refine ⟨r ++ q, ?_⟩
    show (fRun sub (fStep sub f a) as).items = _
    rw [hq, hr, Pile.run, Pile.run, Pile.run, List.foldl_append]

theorem get_some {p : Pile ι γ δ} {u : ι} {x : Item ι γ δ} : Pile.get p (some u) false = .ok (some x) ↔ p.items.get? u = some x := by
  cases h : p.items.get? u with
  | none => simp [Pile.get, h]
  | some y => simp [Pile.get, h]

/-- C302, exactly.  A flow made by `Flow(items, item_type=t, strict_type=s)` keeps to `t` and `s` through every history iff every class that its `items` argument makes
it take is allowed by `t` and `s`.  Missing from the full claim: a pile, a serialised pile and a list of dicts bring their own constraint, and an empty `item_type` is
no constraint (`C302_violation`). -/
theorem C302_exact_partial {D P : Type} [Inhabited δ] (fresh : ∀ l : List ι, ∃ u, u ∉ l) (sub : γ → γ → Bool) (C : Codec ι γ δ D P)
    (t : Option (TypeArg γ)) (s : Bool) (a : ItemsArg ι γ δ D) (hp : Proper sub a) (progs : List (Prog ι)) (f : Flow ι γ δ)
    (hf : init sub C t s a progs = .ok f) :
    KeepsTo sub s t f ↔ ∀ c, Takes sub C.load t s c a → Allowed sub s t c := by
  simp only [init] at hf
  split at hf
  · cases hf
  · next ip hip =>
    have hitems := mk'_items hf
    subst hitems
    obtain ⟨hw, ht⟩ := itemsPile_takes sub C t s a hp hip
    constructor
    · intro hk c hc
      obtain ⟨u, hu⟩ := fresh f.items.items.keys
      let x : Item ι γ δ := ⟨u, c, default⟩
      have hv := (ht x).2 hc
      have hh : f.items.items.has u = false := (Dict.has_eq_false_iff _ _).2 hu
      refine hk [.items (.add (some x))] u x (get_some.2 ?_)
      have ha : Pile.add sub f.items (some x) = ({ f.items with items := f.items.items.set u x, order := f.items.order ++ [u] }, .ok ()) := by
        simp [Pile.add, hv, x, hh]
      show (Pile.step sub f.items (.add (some x))).1.items.get? u = some x
      simp only [Pile.step, ha]
      rw [Dict.get?_set]; simp
    · intro hall as u x hx
      obtain ⟨pops, hpops⟩ := items_fRun sub as f
      rw [hpops, get_some] at hx
      obtain ⟨h1, h2, h3⟩ := hw.run pops
      have := h1.typed u x hx
      rw [h2, h3] at this
      exact hall _ ((ht x).1 this)

/-- C302 for `item_type` naming at least one type (or missing) and items given as elements: the flow keeps to the constraint through every history of calls on the flow,
its progressions and its items pile. -/
theorem C302_holds_partial {D P : Type} (sub : γ → γ → Bool) (C : Codec ι γ δ D P) (t : Option (TypeArg γ)) (s : Bool) (a : ItemsArg ι γ δ D)
    (ha : a = .absent ∨ (∃ x, a = .one x) ∨ ∃ xs, a = .list xs) (hne : t ≠ some (.list []) ∧ t ≠ some (.set [])) (progs : List (Prog ι))
    (f : Flow ι γ δ) (hf : init sub C t s a progs = .ok f) : KeepsTo sub s t f := by
  have hp : Proper sub a := by rcases ha with rfl | ⟨x, rfl⟩ | ⟨xs, rfl⟩ <;> trivial
  simp only [init] at hf
  split at hf
  · cases hf
  · next ip hip =>
    have hitems := mk'_items hf
    subst hitems
    obtain ⟨hw, ht⟩ := itemsPile_takes sub C t s a hp hip
    intro as u x hx
    obtain ⟨pops, hpops⟩ := items_fRun sub as f
    rw [hpops, get_some] at hx
    obtain ⟨h1, h2, h3⟩ := hw.run pops
    have := h1.typed u x hx
    rw [h2, h3] at this
    have hc := (ht x).1 this
    rcases ha with rfl | ⟨y, rfl⟩ | ⟨xs, rfl⟩ <;> simp only [Takes, hne.1, hne.2, or_false] at hc <;> exact hc

/-- C302.  With `item_type` naming at least one type and items given as elements, the constructor raises TypeError if the first element that does not fit is preceded
by fitting elements with distinct ids; no flow is made. -/
theorem C302_refused_partial {D P : Type} (sub : γ → γ → Bool) (C : Codec ι γ δ D P) (t : Option (TypeArg γ)) (s : Bool) (pre : List (Item ι γ δ)) (x : Item ι γ δ)
    (rest : List (Pile.Arg ι γ δ)) (hne : t ≠ some (.list []) ∧ t ≠ some (.set [])) (hpre : ∀ y ∈ pre, Allowed sub s t y.cls) (hn : (pre.map Item.id).Nodup)
    (hx : ¬ Allowed sub s t x.cls) (progs : List (Prog ι)) :
    init sub C t s (.list (pre.map some ++ some x :: rest) : ItemsArg ι γ δ D) progs = .error .typeError := by
  have hv : ∀ y : Item ι γ δ, Pile.validType sub (flowType t) s y = true ↔ Allowed sub s t y.cls := by
    intro y; rw [flowType_iff]; simp [hne.1, hne.2]
  have happ : ∀ (l : List (Pile.Arg ι γ δ)) (r : List (Pile.Arg ι γ δ)) (p q : Pile ι γ δ), Pile.addAll sub p l = .ok q →
      Pile.addAll sub p (l ++ r) = Pile.addAll sub q r := by
    intro l
    induction l with
    | nil => intro r p q h; cases h; rfl
    | cons y l ih =>
      intro r p q h
      simp only [List.cons_append, Pile.addAll] at h ⊢
      split at h
      · exact ih r _ q h
      · cases h
  let e0 : Pile ι γ δ := { itemType := flowType t, strict := s }
  have hinv : Pile.Inv e0 := Pile.inv_empty (flowType t) s none
  obtain ⟨q, hq⟩ := Pile.addAll_ok sub hinv pre (fun y hy => (hv y).2 (hpre y hy)) hn (fun y hy => by simp [e0, Dict.keys])
  obtain ⟨_, h2, h3⟩ := (empty_wt sub (flowType t) s none : Pile.WT sub e0).addAll _ q hq
  have hbad : Pile.validType sub q.itemType q.strict x = false := by
    rw [h2, h3]
    cases hb : Pile.validType sub (flowType t) s x with
    | false => rfl
    | true => exact absurd ((hv x).1 hb) hx
  have : Pile.addAll sub e0 (pre.map some ++ some x :: rest) = .error .typeError := by
    rw [happ _ _ _ _ hq]
    simp [Pile.addAll, Pile.add, hbad]
  have hm : Pile.mk' sub (pre.map some ++ some x :: rest) (flowType t) s none = .error .typeError := by
    simp only [Pile.mk', e0] at this ⊢
    rw [this]
  simp only [init, itemsPile, hm]

/-! ### Violations -/

/-- Class 2 is a subclass of class 1; class 0 is unrelated. -/
def sub3 (a b : Nat) : Bool := a == b || (a == 2 && b == 1)
/-- Serialised items are items, names of classes are their numbers. -/
def codec3 : Codec Nat Nat Unit (Item Nat Nat Unit) (Prog Nat) :=
  { clsName := fun c => toString c
    load := fun n => if n = "0" then some 0 else if n = "1" then some 1 else if n = "2" then some 2 else none
    lionClass := fun x => some (toString x.cls)
    enc := id, dec := .ok, encP := id, decP := .ok }

theorem not_allowed_zero : ¬ Allowed sub3 false (some (.expr (.one 1))) 0 := by
  rintro (h | ⟨b, hb, t, ht, h⟩)
  · cases h
  · cases hb
    rw [← ItemType.C233_extract] at ht
    simp only [extractTypes, List.mem_singleton] at ht
    subst ht
    rcases h with ⟨h, _⟩ | ⟨_, h⟩
    · cases h
    · exact absurd h (by decide)

/-- C302 fails for a pile, a serialised pile, a list of dicts and an empty `item_type`: each call succeeds and the flow holds an element of class 0. -/
theorem C302_violation :
    (∃ f, init sub3 codec3 (some (.expr (.one 1))) false (.pile { items := [(7, ⟨7, 0, ()⟩)], order := [7] }) [] = .ok f ∧ ¬ KeepsTo sub3 false (some (.expr (.one 1))) f) ∧
    (∃ f, init sub3 codec3 (some (.expr (.one 1))) false (.dict ⟨"metadata", ⟨none, false, none, [⟨7, 0, ()⟩]⟩⟩) [] = .ok f ∧ ¬ KeepsTo sub3 false (some (.expr (.one 1))) f) ∧
    (∃ f, init sub3 codec3 (some (.expr (.one 1))) false (.dicts ⟨7, 0, ()⟩ []) [] = .ok f ∧ ¬ KeepsTo sub3 false (some (.expr (.one 1))) f) ∧
    (∃ f, init sub3 codec3 (some (.list [])) false (.list [some ⟨7, 0, ()⟩]) [] = .ok f ∧ ¬ KeepsTo sub3 false (some (.list [])) f) := by
  have key : ∀ (t : Option (TypeArg Nat)) (f : Flow Nat Nat Unit), f.items.items.get? 7 = some ⟨7, 0, ()⟩ → ¬ Allowed sub3 false t 0 → ¬ KeepsTo sub3 false t f :=
    fun t f h hn hk => hn (hk [] 7 _ (get_some.2 h))
  refine ⟨⟨_, rfl, key _ _ rfl not_allowed_zero⟩, ⟨_, rfl, key _ _ rfl not_allowed_zero⟩, ⟨_, rfl, key _ _ rfl not_allowed_zero⟩, ⟨_, rfl, key _ _ rfl ?_⟩⟩
  rintro (h | ⟨b, hb, t, ht, h⟩)
  · cases h
  · cases hb
    rw [← ItemType.C233_extract] at ht
    cases ht

/-- A flow whose items are restricted to class 1: it takes an element of class 2 and refuses one of class 0; the hypotheses of the theorems are met. -/
example : (∃ f, init sub3 codec3 (some (.expr (.one 1))) false (.list [some ⟨7, 2, ()⟩]) [] = .ok f ∧ KeepsTo sub3 false (some (.expr (.one 1))) f) ∧
    init sub3 codec3 (some (.expr (.one 1))) false (.list [some ⟨7, 2, ()⟩, some ⟨8, 0, ()⟩]) [] = .error .typeError :=
  ⟨⟨_, rfl, C302_holds_partial sub3 codec3 (some (.expr (.one 1))) false (.list [some ⟨7, 2, ()⟩]) (Or.inr (Or.inr ⟨_, rfl⟩)) ⟨nofun, nofun⟩ [] _ rfl⟩, rfl⟩

/-- A pile with the same constraint keeps to it as well. -/
example : ∃ f, init sub3 codec3 (some (.expr (.one 1))) false (.pile { itemType := some [2] }) [] = .ok f ∧ KeepsTo sub3 false (some (.expr (.one 1))) f := by
  refine ⟨_, rfl, (C302_exact_partial (fun l => ?_) sub3 codec3 _ false (.pile { itemType := some [2] }) ⟨[], some [2], false, none, _, [], rfl, rfl⟩ [] _ rfl).2 ?_⟩
  · exact ⟨l.foldr max 0 + 1, fun h => by
      have : ∀ (l : List Nat) (x : Nat), x ∈ l → x ≤ l.foldr max 0 := by
        intro l; induction l with
        | nil => intro x hx; cases hx
        | cons y l ih =>
          intro x hx
          rcases List.mem_cons.1 hx with rfl | hx
          · exact Nat.le_max_left _ _
          · exact Nat.le_trans (ih x hx) (Nat.le_max_right _ _)
      exact absurd (this l _ h) (by omega)⟩
  · rintro c (h | ⟨ts, h, k, hk, h'⟩)
    · cases h
    · cases h
      simp only [List.mem_singleton] at hk
      subst hk
      refine Or.inr ⟨_, rfl, 1, Or.inl ⟨_, rfl, Or.inl rfl⟩, Or.inr ⟨rfl, ?_⟩⟩
      rcases h' with ⟨h, _⟩ | ⟨_, h⟩
      · cases h
      · simp only [sub3, Bool.or_eq_true, beq_iff_eq, Bool.and_eq_true] at h ⊢
        rcases h with rfl | ⟨rfl, h⟩ <;> simp at *

end Verif.Flow
