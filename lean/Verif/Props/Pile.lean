import Verif.Spec.Slice
import Verif.Lemmas.Pile
import Verif.Props.Progression

/-!
# Properties C05–C10: `Pile`
-/

set_option linter.unusedSectionVars false
set_option linter.unusedSimpArgs false

namespace Verif.Pile

variable {ι γ δ : Type} [DecidableEq ι] [DecidableEq γ]

/-! ## Helpers -/

theorem mk'_inv (sub : γ → γ → Bool) (xs : List (Arg ι γ δ)) (t : Option (List γ)) (s : Bool)
    (p : Pile ι γ δ) (h : mk' sub xs t s none = .ok p) :
    Inv p ∧ (abs p).map some = xs ∧ p.itemType = t ∧ p.strict = s ∧ p.pname = none := by
  unfold mk' at h
  split at h
  · cases h
  · next q hq =>
    simp only [Except.ok.injEq] at h
    subst h
    have := addAll_spec sub (inv_empty t s none) xs q hq
    refine ⟨this.1, ?_, this.2.1, this.2.2.1, this.2.2.2.1⟩
    simpa [abs] using this.2.2.2.2

/-- Dict well-formedness and typing, kept by every call on any pile, consistent or not. -/
structure WT (sub : γ → γ → Bool) (p : Pile ι γ δ) : Prop where
  wf : p.items.WF
  typed : Typed sub p

theorem WT.set {sub : γ → γ → Bool} {p : Pile ι γ δ} (h : WT sub p) (x : Item ι γ δ)
    (hx : validType sub p.itemType p.strict x = true) (o : List ι) :
    WT sub { p with items := p.items.set x.id x, order := o } := by
  constructor
  · exact Dict.set_wf h.wf _ _
  · intro u y hy
    simp only [Dict.get?_set] at hy
    split at hy
    · injection hy with hy; subst hy; exact hx
    · exact h.typed u y hy

theorem WT.del {sub : γ → γ → Bool} {p : Pile ι γ δ} (h : WT sub p) (u : ι) (o : List ι) :
    WT sub { p with items := p.items.del u, order := o } := by
  constructor
  · exact Dict.del_wf h.wf _
  · intro v y hy
    simp only [Dict.get?_del h.wf] at hy
    split at hy
    · cases hy
    · exact h.typed v y hy

theorem WT.add {sub : γ → γ → Bool} {p : Pile ι γ δ} (h : WT sub p) (a : Arg ι γ δ) :
    WT sub (Pile.add sub p a).1 ∧ (Pile.add sub p a).1.itemType = p.itemType ∧
      (Pile.add sub p a).1.strict = p.strict := by
  cases a with
  | none => exact ⟨h, rfl, rfl⟩
  | some x =>
    simp only [Pile.add]
    split
    · exact ⟨h, rfl, rfl⟩
    · next hv =>
      split
      · exact ⟨h, rfl, rfl⟩
      · exact ⟨h.set x (by simpa using hv) _, rfl, rfl⟩

theorem WT.remove {sub : γ → γ → Bool} {p : Pile ι γ δ} (h : WT sub p) (r : Ref ι) :
    WT sub (Pile.remove p r).1 ∧ (Pile.remove p r).1.itemType = p.itemType ∧
      (Pile.remove p r).1.strict = p.strict := by
  cases r with
  | none => exact ⟨h, rfl, rfl⟩
  | some u =>
    simp only [Pile.remove]
    split
    · exact ⟨h, rfl, rfl⟩
    · split <;> exact ⟨h.del u _, rfl, rfl⟩

theorem WT.step {sub : γ → γ → Bool} {p : Pile ι γ δ} (h : WT sub p) (op : Op ι γ δ) :
    WT sub (Pile.step sub p op).1 ∧ (Pile.step sub p op).1.itemType = p.itemType ∧
      (Pile.step sub p op).1.strict = p.strict := by
  cases op with
  | add a => exact h.add a
  | remove r => exact h.remove r
  | pop r d =>
    cases r with
    | none => exact ⟨h, rfl, rfl⟩
    | some u =>
      simp only [Pile.step, pop]
      split
      · exact ⟨h, rfl, rfl⟩
      · split <;> exact ⟨h.del u _, rfl, rfl⟩
  | get r d => exact ⟨h, rfl, rfl⟩
  | update a =>
    cases a with
    | none => exact ⟨h, rfl, rfl⟩
    | some x =>
      simp only [Pile.step, update]
      split
      · exact ⟨h, rfl, rfl⟩
      · next hv =>
        split
        · exact ⟨h, rfl, rfl⟩
        · exact ⟨h.set x (by simpa using hv) _, rfl, rfl⟩
  | clear =>
    refine ⟨⟨List.nodup_nil, ?_⟩, rfl, rfl⟩
    intro u x hx; cases hx
  | include_ a =>
    cases a with
    | none => exact ⟨h, rfl, rfl⟩
    | some x =>
      simp only [Pile.step, include_]
      have := h.add (some x)
      split
      · exact ⟨h, rfl, rfl⟩
      · split <;> simp_all
  | exclude r =>
    cases r with
    | none => exact ⟨h, rfl, rfl⟩
    | some u =>
      simp only [Pile.step, exclude]
      have := h.remove (some u)
      split
      · split <;> simp_all
      · exact ⟨h, rfl, rfl⟩
  | contains r => exact ⟨h, rfl, rfl⟩
  | len => exact ⟨h, rfl, rfl⟩
  | iter => exact ⟨h, rfl, rfl⟩

theorem WT.run {sub : γ → γ → Bool} {p : Pile ι γ δ} (h : WT sub p) (ops : List (Op ι γ δ)) :
    WT sub (Pile.run sub p ops) ∧ (Pile.run sub p ops).itemType = p.itemType ∧
      (Pile.run sub p ops).strict = p.strict := by
  induction ops generalizing p with
  | nil => exact ⟨h, rfl, rfl⟩
  | cons op ops ih =>
    have h1 := h.step op
    have h2 := ih h1.1
    exact ⟨h2.1, h2.2.1.trans h1.2.1, h2.2.2.trans h1.2.2⟩

theorem WT.addAll {sub : γ → γ → Bool} {p : Pile ι γ δ} (h : WT sub p) (xs : List (Arg ι γ δ)) (q : Pile ι γ δ)
    (hq : Pile.addAll sub p xs = .ok q) : WT sub q ∧ q.itemType = p.itemType ∧ q.strict = p.strict := by
  induction xs generalizing p with
  | nil => simp only [Pile.addAll, Except.ok.injEq] at hq; subst hq; exact ⟨h, rfl, rfl⟩
  | cons a as ih =>
    simp only [Pile.addAll] at hq
    have h1 := h.add a
    split at hq
    · next p' heq =>
      rw [heq] at h1
      have := ih h1.1 hq
      exact ⟨this.1, this.2.1.trans h1.2.1, this.2.2.trans h1.2.2⟩
    · cases hq

theorem WT.mk' {sub : γ → γ → Bool} (xs : List (Arg ι γ δ)) (t : Option (List γ)) (s : Bool)
    (o : Option (List ι)) (p : Pile ι γ δ) (h : Pile.mk' sub xs t s o = .ok p) :
    WT sub p ∧ p.itemType = t ∧ p.strict = s := by
  have h0 : WT sub ({ itemType := t, strict := s } : Pile ι γ δ) :=
    ⟨List.nodup_nil, by intro u x hx; cases hx⟩
  unfold Pile.mk' at h
  split at h
  · cases h
  · next q hq =>
    have hw := h0.addAll xs q hq
    split at h
    · cases h; exact hw
    · cases h; exact hw
    · split at h
      · cases h
        exact ⟨⟨hw.1.wf, hw.1.typed⟩, hw.2.1, hw.2.2⟩
      · cases h

theorem lookupAll_mem {d : Dict ι (Item ι γ δ)} {us : List ι} {l : List (Item ι γ δ)}
    (h : lookupAll d us = .ok l) (x : Item ι γ δ) (hx : x ∈ l) : ∃ u, d.get? u = some x := by
  induction us generalizing l with
  | nil => simp only [lookupAll, Except.ok.injEq] at h; subst h; cases hx
  | cons u us ih =>
    simp only [lookupAll] at h
    split at h
    · cases h
    · next y hy =>
      split at h
      · next ys hys =>
        cases h
        rcases List.mem_cons.1 hx with rfl | hx
        · exact ⟨u, hy⟩
        · exact ih hys hx
      · cases h

/-! ## C05: order and contents always agree -/

/-- C05: after any history of calls on a pile built without an explicit order, iterating succeeds and yields a list
with pairwise distinct ids such that: `len` is its length; `keys()` are its ids; `items()` pairs ids and items;
`uid in pile` holds exactly for its ids; and `get(uid)` returns exactly its item with that id. -/
theorem C05_order_contents_agree (sub : γ → γ → Bool) (xs : List (Arg ι γ δ)) (t : Option (List γ)) (s : Bool)
    (p₀ : Pile ι γ δ) (h₀ : mk' sub xs t s none = .ok p₀) (ops : List (Op ι γ δ)) :
    let p := run sub p₀ ops
    ∃ l, iter p = .ok l ∧ (l.map Item.id).Nodup ∧ len p = l.length ∧ keys p = l.map Item.id ∧
      itemPairs p = .ok (l.map (fun x => (x.id, x))) ∧
      (isEmpty p = true ↔ l = []) ∧
      (∀ u, contains p (some u) = true ↔ ∃ x ∈ l, x.id = u) ∧
      (∀ u x, get p (some u) false = .ok (some x) ↔ x ∈ l ∧ x.id = u) := by
  intro p
  have hi : Inv p := run_inv sub (mk'_inv sub xs t s p₀ h₀).1 ops
  refine ⟨abs p, iter_eq hi, abs_nodup hi, (abs_length hi).symm, (abs_ids hi).symm, ?_, ?_, ?_, ?_⟩
  · simp [itemPairs, iter_eq hi, Except.map]
  · unfold isEmpty
    rw [← abs_length hi]; simp
  · intro u
    show p.items.has u = true ↔ _
    rw [Dict.has_iff, ← hi.mem_iff, ← abs_ids hi, List.mem_map]
  · intro u x
    rw [mem_abs hi]
    unfold get
    constructor
    · intro h
      simp only at h
      split at h
      · next y hy =>
        simp only [Except.ok.injEq, Option.some.injEq] at h; subst h
        have := hi.ids u y hy
        subst this; exact ⟨hy, rfl⟩
      · simp at h
    · rintro ⟨hx, rfl⟩
      simp [hx]

/-- Non-vacuity for C05: a history with a rejected duplicate add, an update and a removal. -/
example :
    (mk' (fun _ _ => true) [some ⟨1, (), 10⟩, some ⟨2, (), 20⟩] none false none).toOption.map
      (fun p => (run (fun _ _ => true) p
        [.add (some ⟨3, (), 30⟩), .add (some ⟨1, (), 99⟩), .update (some ⟨2, (), 21⟩), .remove (some 1)])) =
    some { items := [(2, ⟨2, (), 21⟩), (3, ⟨3, (), 30⟩)], order := [2, 3] } := by decide

/-! ## C06: a pile is an insertion-ordered map -/

/-- Results of a history of calls on a pile. -/
def outputs (sub : γ → γ → Bool) (p : Pile ι γ δ) : List (Op ι γ δ) → List (Except Exc (Out ι γ δ))
  | [] => []
  | op :: ops => (step sub p op).2 :: outputs sub (step sub p op).1 ops

/-- Results of a history of calls on the abstract ordered map. -/
def specOutputs (ok : Item ι γ δ → Bool) (l : List (Item ι γ δ)) :
    List (Op ι γ δ) → List (Except Exc (Out ι γ δ))
  | [] => []
  | op :: ops => (OMap.step ok l op).2 :: specOutputs ok (OMap.step ok l op).1 ops

theorem outputs_refine (sub : γ → γ → Bool) {p : Pile ι γ δ} (h : Inv p) (ops : List (Op ι γ δ)) :
    outputs sub p ops = specOutputs (validType sub p.itemType p.strict) (abs p) ops := by
  induction ops generalizing p with
  | nil => rfl
  | cons op ops ih =>
    obtain ⟨hi, hr, hc1, hc2, -⟩ := step_refines sub h op
    simp only [outputs, specOutputs]
    rw [← hr, ih hi, hc1, hc2]

/-- C06: for every construction without explicit order and every history, each call returns exactly (value or
exception) what the insertion-ordered map holding the constructor's items returns, where `ok` is any decision
procedure for the type constraint. -/
theorem C06_refines_ordered_map (sub : γ → γ → Bool) (xs : List (Item ι γ δ)) (t : Option (List γ)) (s : Bool)
    (p₀ : Pile ι γ δ) (h₀ : mk' sub (xs.map some) t s none = .ok p₀)
    (ok : Item ι γ δ → Bool) (hok : ∀ x, ok x = true ↔ OMap.Satisfies sub t s x) (ops : List (Op ι γ δ)) :
    outputs sub p₀ ops = specOutputs ok xs ops := by
  obtain ⟨hi, ha, ht, hs, -⟩ := mk'_inv sub _ t s p₀ h₀
  have hx : abs p₀ = xs := (List.map_inj_right (fun _ _ h => Option.some.inj h)).1 ha
  rw [outputs_refine sub hi, hx]
  congr 1
  funext x
  rw [Bool.eq_iff_iff, hok, validType_iff, ht, hs]

/-- C06: construction succeeds exactly when all items satisfy the constraint and their ids are distinct. -/
theorem C06_construction (sub : γ → γ → Bool) (xs : List (Item ι γ δ)) (t : Option (List γ)) (s : Bool) :
    (∃ p, mk' sub (xs.map some) t s none = .ok p) ↔
      (∀ x ∈ xs, OMap.Satisfies sub t s x) ∧ (xs.map Item.id).Nodup := by
  constructor
  · rintro ⟨p, hp⟩
    obtain ⟨hi, ha, ht, hs, -⟩ := mk'_inv sub _ t s p hp
    have hx : abs p = xs := (List.map_inj_right (fun _ _ h => Option.some.inj h)).1 ha
    obtain ⟨hw, -, -⟩ := WT.mk' _ t s none p hp
    constructor
    · intro x hxm
      rw [← hx, mem_abs hi] at hxm
      have := hw.typed _ _ hxm
      rw [ht, hs] at this
      exact (validType_iff _ _ _ _).1 this
    · rw [← hx]; exact abs_nodup hi
  · rintro ⟨hv, hn⟩
    obtain ⟨q, hq⟩ := addAll_ok sub (inv_empty t s none) xs (fun x hx => (validType_iff _ _ _ _).2 (hv x hx)) hn
      (by simp [Dict.keys])
    exact ⟨q, by simp [mk', hq]⟩

/-- C06: a call that raises leaves the pile exactly as it was (whole state, for every consistent pile). -/
theorem C06_error_unchanged (sub : γ → γ → Bool) (p : Pile ι γ δ) (h : Inv p) (op : Op ι γ δ) (e : Exc)
    (he : (step sub p op).2 = .error e) : (step sub p op).1 = p := by
  have hmem : ∀ u x, p.items.get? u = some x → u ∈ p.order :=
    fun u x hx => (h.mem_iff u).2 (Dict.mem_keys_of_get? hx)
  cases op with
  | add a =>
    cases a with
    | none => rfl
    | some x =>
      simp only [step, add] at *
      split
      · rfl
      · split <;> simp_all [Except.map]
  | remove r =>
    cases r with
    | none => rfl
    | some u =>
      simp only [step, remove] at *
      cases hg : p.items.get? u with
      | none => rfl
      | some x => simp [hg, Progression.remove, hmem u x hg, Except.map] at he
  | pop r d =>
    cases r with
    | none => rfl
    | some u =>
      simp only [step, pop] at *
      cases hg : p.items.get? u with
      | none => rfl
      | some x => simp [hg, Progression.remove, hmem u x hg, Except.map] at he
  | get r d => rfl
  | update a =>
    cases a with
    | none => rfl
    | some x =>
      simp only [step, update] at *
      split
      · rfl
      · split <;> simp_all [Except.map]
  | clear => simp [step, clear, Except.map] at he
  | include_ a =>
    cases a with
    | none => rfl
    | some x =>
      simp only [step, include_] at *
      split <;> (try split) <;> simp_all [Except.map] <;> (split at he <;> simp_all)
  | exclude r =>
    cases r with
    | none => rfl
    | some u =>
      simp only [step, exclude] at *
      split <;> (try split) <;> simp_all [Except.map] <;> (split at he <;> simp_all)
  | contains r => rfl
  | len => rfl
  | iter => rfl

/-- C06: the hypothesis of `C06_error_unchanged` holds in every reachable state. -/
theorem C06_reachable_consistent (sub : γ → γ → Bool) (xs : List (Arg ι γ δ)) (t : Option (List γ)) (s : Bool)
    (p₀ : Pile ι γ δ) (h₀ : mk' sub xs t s none = .ok p₀) (ops : List (Op ι γ δ)) : Inv (run sub p₀ ops) :=
  run_inv sub (mk'_inv sub xs t s p₀ h₀).1 ops

example : (step (fun _ _ => true) ({ items := [(1, ⟨1, (), 5⟩)], order := [1] } : Pile Nat Unit Nat)
    (.remove (some 2))).2.toOption.isNone = true := by decide

/-! ## C07: the type constraint is never violated -/

/-- C07: for every class hierarchy, constraint, constructor call (also with an explicit order) and history, every
item that iteration or `get` produces satisfies the constraint given at construction. -/
theorem C07_type_constraint (sub : γ → γ → Bool) (xs : List (Arg ι γ δ)) (t : Option (List γ)) (s : Bool)
    (o : Option (List ι)) (p₀ : Pile ι γ δ) (h₀ : mk' sub xs t s o = .ok p₀) (ops : List (Op ι γ δ)) :
    let p := run sub p₀ ops
    (∀ l, iter p = .ok l → ∀ x ∈ l, OMap.Satisfies sub t s x) ∧
    (∀ r d x, get p r d = .ok (some x) → OMap.Satisfies sub t s x) := by
  intro p
  obtain ⟨hw, ht, hs⟩ := WT.mk' xs t s o p₀ h₀
  obtain ⟨hw', ht', hs'⟩ := hw.run ops
  have key : ∀ u x, p.items.get? u = some x → OMap.Satisfies sub t s x := by
    intro u x hx
    have := hw'.typed u x hx
    rw [ht', hs', ht, hs] at this
    exact (validType_iff _ _ _ _).1 this
  constructor
  · intro l hl x hx
    obtain ⟨u, hu⟩ := lookupAll_mem hl x hx
    exact key u x hu
  · intro r d x hx
    cases r with
    | none => simp [get] at hx
    | some u =>
      simp only [get] at hx
      split at hx
      · next y hy => simp at hx; subst hx; exact key u y hy
      · split at hx <;> simp at hx

/-- C07: an item violating the constraint is rejected by `add`, `update` with `TypeError` and by `include` with `False`
(unless an item with its id is already there), without any change. -/
theorem C07_violating_item_rejected (sub : γ → γ → Bool) (p : Pile ι γ δ) (x : Item ι γ δ)
    (hx : ¬ OMap.Satisfies sub p.itemType p.strict x) :
    add sub p (some x) = (p, .error .typeError) ∧ update sub p (some x) = (p, .error .typeError) ∧
    (p.items.has x.id = false → include_ sub p (some x) = (p, .ok false)) := by
  have hv : validType sub p.itemType p.strict x = false := by
    rw [← validType_iff] at hx; simpa using hx
  refine ⟨by simp [add, hv], by simp [update, hv], ?_⟩
  intro h; simp [include_, h, add, hv]

/-- Non-vacuity for C07: class 2 is a subclass of class 1; a non-strict pile of class 1 stores a class-2 item and a
strict one refuses it. -/
example :
    (mk' (fun c d => c == d || (c == 2 && d == 1)) [some (⟨1, 2, ()⟩ : Item Nat Nat Unit)] (some [1]) false none).toOption.isSome ∧
    (mk' (fun c d => c == d || (c == 2 && d == 1)) [some (⟨1, 2, ()⟩ : Item Nat Nat Unit)] (some [1]) true none).toOption.isNone := by
  decide

/-! ## C08: explicit order -/

/-- C08 for orders that are duplicate-free and mention every item: construction succeeds, the pile is consistent and
iterates over its items in exactly the given order.  Missing from the full claim: rejection of orders that repeat
or omit ids; the code accepts them (`C08_subset_violation`, `C08_duplicate_violation`). -/
theorem C08_explicit_order_partial (sub : γ → γ → Bool) (xs : List (Item ι γ δ)) (t : Option (List γ)) (s : Bool)
    (o : List ι) (hv : ∀ x ∈ xs, OMap.Satisfies sub t s x) (hn : (xs.map Item.id).Nodup)
    (ho : o.Perm (xs.map Item.id)) :
    ∃ p l, mk' sub (xs.map some) t s (some o) = .ok p ∧ Inv p ∧ iter p = .ok l ∧ l.map Item.id = o ∧ l.Perm xs := by
  obtain ⟨q, hq⟩ := (C06_construction sub xs t s).2 ⟨hv, hn⟩
  obtain ⟨hi, ha, ht, hs, hp⟩ := mk'_inv sub _ t s q hq
  have hx : abs q = xs := (List.map_inj_right (fun _ _ h => Option.some.inj h)).1 ha
  have hqa : addAll sub { itemType := t, strict := s } (xs.map some) = .ok q := by
    unfold mk' at hq
    split at hq
    · cases hq
    · next q' hq' => cases hq; exact hq'
  have hoq : q.order = xs.map Item.id := by rw [← abs_ids hi, hx]
  have hi' : Inv { q with order := o, pname := none } := by
    constructor
    · exact hi.wf
    · exact ho.nodup_iff.2 hn
    · intro u
      show u ∈ o ↔ _
      rw [ho.mem_iff, ← hoq]; exact hi.mem_iff u
    · exact hi.ids
  have hperm : (abs { q with order := o, pname := none }).Perm xs := by
    rw [← hx]
    unfold abs
    apply List.Perm.filterMap
    show o.Perm q.order
    rw [hoq]; exact ho
  cases o with
  | nil =>
    have hnil : xs = [] := by
      have := ho.length_eq; simp at this; exact List.eq_nil_of_length_eq_zero this.symm
    subst hnil
    refine ⟨q, [], ?_, hi, ?_, rfl, List.Perm.refl _⟩
    · simp only [mk', hqa]
    · rw [iter_eq hi, hx]
  | cons a o =>
    refine ⟨_, _, ?_, hi', iter_eq hi', abs_ids hi', hperm⟩
    have hall : (a :: o).all (fun u => q.items.has u) = true := by
      rw [List.all_eq_true]
      intro u hu
      rw [Dict.has_iff, ← hi.mem_iff, hoq, ← ho.mem_iff]; exact hu
    simp only [mk', hqa, hall, if_true]

/-- C08: an order mentioning an id that is not among the items is rejected with `NotFoundError`. -/
theorem C08_unknown_id_rejected (sub : γ → γ → Bool) (xs : List (Item ι γ δ)) (t : Option (List γ)) (s : Bool)
    (o : List ι) (hv : ∀ x ∈ xs, OMap.Satisfies sub t s x) (hn : (xs.map Item.id).Nodup)
    (u : ι) (hu : u ∈ o) (hux : u ∉ xs.map Item.id) :
    mk' sub (xs.map some) t s (some o) = .error .notFound := by
  obtain ⟨q, hq⟩ := (C06_construction sub xs t s).2 ⟨hv, hn⟩
  obtain ⟨hi, ha, -⟩ := mk'_inv sub _ t s q hq
  have hx : abs q = xs := (List.map_inj_right (fun _ _ h => Option.some.inj h)).1 ha
  have hqa : addAll sub { itemType := t, strict := s } (xs.map some) = .ok q := by
    unfold mk' at hq
    split at hq
    · cases hq
    · next q' hq' => cases hq; exact hq'
  have hno : q.items.has u = false := by
    rw [Dict.has_eq_false_iff, ← hi.mem_iff, ← abs_ids hi, hx]; exact hux
  cases o with
  | nil => cases hu
  | cons a o =>
    have hall : (a :: o).all (fun v => q.items.has v) = false := by
      rw [List.all_eq_false]; exact ⟨u, hu, by simp [hno]⟩
    simp only [mk', hqa, hall]; rfl

/-- Two items used by the C08 witnesses. -/
def w1 : Item Nat Unit Unit := ⟨1, (), ()⟩
/-- Second item used by the C08 witnesses. -/
def w2 : Item Nat Unit Unit := ⟨2, (), ()⟩

/-- C08 is false as stated: an order omitting an item is accepted; the pile then has length 2, contains item 2, but
iterates over item 1 only, and removing item 2 raises `ValueError` after having deleted it. -/
theorem C08_subset_violation :
    ∃ p, mk' (fun _ _ => true) [some w1, some w2] none false (some [1]) = .ok p ∧
      len p = 2 ∧ contains p (some 2) = true ∧ iter p = .ok [w1] ∧
      (remove p (some 2)).2 = .error .valueError ∧ contains (remove p (some 2)).1 (some 2) = false :=
  ⟨{ items := [(1, w1), (2, w2)], order := [1] }, by decide⟩

/-- C08 is false as stated: an order repeating an id is accepted; iteration yields the item twice, and removing it
leaves a dangling id so that iteration raises `KeyError`. -/
theorem C08_duplicate_violation :
    ∃ p, mk' (fun _ _ => true) [some w1] none false (some [1, 1]) = .ok p ∧
      iter p = .ok [w1, w1] ∧ len p = 1 ∧ iter (remove p (some 1)).1 = .error .keyError :=
  ⟨{ items := [(1, w1)], order := [1, 1] }, by decide⟩

example : ([2, 1] : List Nat).Perm ([w1, w2].map Item.id) ∧ ([w1, w2].map Item.id).Nodup := by decide

/-! ## C09: queries -/

/-- A pile in a state reachable by the API: built without explicit order, then any history. -/
def Reachable (sub : γ → γ → Bool) (p : Pile ι γ δ) : Prop :=
  ∃ xs t s p₀ ops, mk' sub xs t s none = .ok p₀ ∧ p = run sub p₀ ops

theorem Reachable.inv {sub : γ → γ → Bool} {p : Pile ι γ δ} (h : Reachable sub p) : Inv p := by
  obtain ⟨xs, t, s, p₀, ops, h₀, rfl⟩ := h
  exact run_inv sub (mk'_inv sub xs t s p₀ h₀).1 ops

theorem Reachable.typed {sub : γ → γ → Bool} {p : Pile ι γ δ} (h : Reachable sub p) : Typed sub p := by
  obtain ⟨xs, t, s, p₀, ops, h₀, rfl⟩ := h
  exact ((WT.mk' xs t s none p₀ h₀).1.run ops).1.typed

/-- `q` is a consistent pile whose iteration yields exactly `xs`, with the constraint of `p`. -/
def Yields (p : Pile ι γ δ) (r : Except Exc (Pile ι γ δ)) (xs : List (Item ι γ δ)) : Prop :=
  ∃ q, r = .ok q ∧ iter q = .ok xs ∧ len q = xs.length ∧ keys q = xs.map Item.id ∧ Inv q ∧
    q.itemType = p.itemType ∧ q.strict = p.strict

theorem derived_yields (sub : γ → γ → Bool) {p : Pile ι γ δ} (ht : Typed sub p)
    (xs : List (Item ι γ δ)) (hx : ∀ x ∈ xs, ∃ u, p.items.get? u = some x) (hn : (xs.map Item.id).Nodup) :
    Yields p (derived sub p xs) xs := by
  obtain ⟨q, hq, hi, ha, h1, h2⟩ := derived_ok sub ht xs hx hn
  refine ⟨q, hq, by rw [iter_eq hi, ha], ?_, ?_, hi, h1, h2⟩
  · show q.items.length = _
    rw [← abs_length hi, ha]
  · show q.order = _
    rw [← abs_ids hi, ha]

theorem getElem?_abs {p : Pile ι γ δ} (h : Inv p) (k : Nat) :
    (abs p)[k]? = (p.order[k]?).bind p.items.get? := by
  have hdef := isSome_of_order h
  unfold abs
  generalize p.order = os at hdef ⊢
  induction os generalizing k with
  | nil => simp
  | cons u us ih =>
    obtain ⟨x, hx⟩ := Option.isSome_iff_exists.1 (hdef u (by simp))
    simp only [List.filterMap_cons, hx]
    cases k with
    | zero => simp [hx]
    | succ k => simp only [List.getElem?_cons_succ]; exact ih k (fun v hv => hdef v (by simp [hv]))

theorem order_length {p : Pile ι γ δ} (h : Inv p) : p.order.length = (abs p).length := by
  rw [← abs_ids h]; simp

/-- C09 (index): `pile[i]` is the item at the addressed position of the iteration order; `IndexError` outside
`[-len, len)`. -/
theorem C09_index (sub : γ → γ → Bool) (p : Pile ι γ δ) (h : Reachable sub p) (l : List (Item ι γ δ))
    (hl : iter p = .ok l) (i : Int) :
    (∀ k, (hk : Progression.Addresses l.length i k) → getByIndex p i = .ok (l[k]'hk.1)) ∧
    (¬ (-(l.length : Int) ≤ i ∧ i < l.length) → getByIndex p i = .error .indexError) := by
  have hi := h.inv
  have hla : l = abs p := by rw [iter_eq hi] at hl; cases hl; rfl
  subst hla
  constructor
  · intro k hk
    have hk' := hk
    rw [← order_length hi] at hk'
    have h1 : Py.getIdx p.order i = p.order[k]? := by
      unfold Py.getIdx
      rw [(Progression.normIndex_eq_some_iff _ _ _).2 hk']
    have h2 := getElem?_abs hi k
    rw [List.getElem?_eq_getElem hk.1, List.getElem?_eq_getElem hk'.1] at h2
    unfold getByIndex
    rw [h1, List.getElem?_eq_getElem hk'.1]
    simp only
    simp only [Option.bind_some] at h2
    rw [← h2]
  · intro hk
    rw [← order_length hi] at hk
    unfold getByIndex Py.getIdx
    rw [(Progression.normIndex_eq_none_iff _ _).2 hk]

theorem abs_filterMap_getElem? {p : Pile ι γ δ} (h : Inv p) (ps : List Nat) :
    (ps.filterMap (fun k => p.order[k]?)).filterMap p.items.get? = ps.filterMap (fun k => (abs p)[k]?) := by
  rw [List.filterMap_filterMap]
  apply filterMap_congr'
  intro k _
  rw [getElem?_abs h]

/-- Positions addressed by a slice are pairwise distinct and in range. -/
theorem slice_positions_nodup (s : Py.Slice) (n : Nat) (ps : List Nat) (h : s.positions n = some ps) :
    ps.Nodup ∧ ∀ k ∈ ps, k < n := by
  unfold Py.Slice.positions at h
  simp only at h
  split at h
  · cases h
  · next hstep =>
    generalize hst : s.step.getD 1 = step at *
    generalize hadj : s.adjust n step = adj at *
    obtain ⟨a, b⟩ := adj
    simp only [Option.some.injEq] at h
    have hbounds : (0 < step → 0 ≤ a ∧ b ≤ n) ∧ (step < 0 → a < n ∧ -1 ≤ b) := by
      simp only [Py.Slice.adjust, Prod.mk.injEq] at hadj
      obtain ⟨h1, h2⟩ := hadj
      constructor
      · intro hp
        have hns : ¬ step < 0 := by omega
        simp only [hns, if_false] at h1 h2
        constructor
        · subst h1; split <;> (try split) <;> (try split) <;> omega
        · subst h2; split <;> (try split) <;> (try split) <;> omega
      · intro hp
        simp only [hp, if_true] at h1 h2
        constructor
        · subst h1; split <;> (try split) <;> (try split) <;> omega
        · subst h2; split <;> (try split) <;> (try split) <;> omega
    have hrange : ∀ j, j < Py.Slice.count a b step → 0 ≤ a + (j : Int) * step ∧ a + (j : Int) * step < n := by
      intro j hj
      unfold Py.Slice.count at hj
      split at hj
      · next hneg =>
        obtain ⟨hb1, hb2⟩ := hbounds.2 hneg
        split at hj
        · next hlt =>
          have hj' : (j : Int) ≤ (a - b - 1) / (-step) := by omega
          have hpos : 0 < -step := by omega
          have hmul : (j : Int) * (-step) ≤ a - b - 1 := by
            have := Int.mul_le_of_le_ediv hpos hj'; exact this
          have hnn : 0 ≤ (j : Int) * (-step) := Int.mul_nonneg (by omega) (by omega)
          rw [Int.mul_neg] at hmul hnn
          omega
        · omega
      · next hneg =>
        have hpos : 0 < step := by omega
        obtain ⟨hb1, hb2⟩ := hbounds.1 hpos
        split at hj
        · next hlt =>
          have hj' : (j : Int) ≤ (b - a - 1) / step := by omega
          have hmul : (j : Int) * step ≤ b - a - 1 := Int.mul_le_of_le_ediv hpos hj'
          have hnn : 0 ≤ (j : Int) * step := Int.mul_nonneg (by omega) (by omega)
          omega
        · omega
    subst h
    constructor
    · rw [List.Nodup, List.pairwise_map]
      refine List.Pairwise.imp_of_mem ?_ (List.nodup_range (n := Py.Slice.count a b step))
      intro j k hj hk hne heq
      rw [List.mem_range] at hj hk
      have h1 := hrange j hj
      have h2 := hrange k hk
      have : (j : Int) * step = (k : Int) * step := by omega
      have := Int.eq_of_mul_eq_mul_right (by omega) this
      omega
    · intro k hk
      obtain ⟨j, hj, rfl⟩ := List.mem_map.1 hk
      rw [List.mem_range] at hj
      have := hrange j hj
      omega

theorem filterMap_getElem?_nodup {l : List (Item ι γ δ)} (hn : (l.map Item.id).Nodup) {ps : List Nat} (hp : ps.Nodup) :
    ((ps.filterMap (fun k => l[k]?)).map Item.id).Nodup := by
  induction ps with
  | nil => simp
  | cons k ks ih =>
    rw [List.nodup_cons] at hp
    simp only [List.filterMap_cons]
    cases hk : l[k]? with
    | none => exact ih hp.2
    | some x =>
      simp only [List.map_cons, List.nodup_cons]
      refine ⟨?_, ih hp.2⟩
      intro hm
      obtain ⟨y, hy, he⟩ := List.mem_map.1 hm
      obtain ⟨j, hj, hy'⟩ := List.mem_filterMap.1 hy
      have e1 : (l.map Item.id)[k]? = some x.id := by simp [hk]
      have e2 : (l.map Item.id)[j]? = some x.id := by simp [hy', he]
      have hkl : k < (l.map Item.id).length := by
        rcases Nat.lt_or_ge k (l.map Item.id).length with h | h
        · exact h
        · rw [List.getElem?_eq_none h] at e1; cases e1
      have : k = j := (List.getElem?_inj hkl hn).1 (by rw [e1, e2])
      subst this; exact hp.1 hj

theorem mem_filterMap_abs {p : Pile ι γ δ} (h : Inv p) {ps : List Nat} {x : Item ι γ δ}
    (hx : x ∈ ps.filterMap (fun k => (abs p)[k]?)) : ∃ u, p.items.get? u = some x := by
  obtain ⟨k, -, hk⟩ := List.mem_filterMap.1 hx
  have := List.mem_of_getElem? hk
  exact ⟨x.id, (mem_abs h x).1 this⟩

/-- C09 (slice): `pile[start:stop:step]` is a consistent pile over exactly the Python slice of the iteration order;
only a zero step fails (`ValueError`). -/
theorem C09_slice (sub : γ → γ → Bool) (p : Pile ι γ δ) (h : Reachable sub p) (l : List (Item ι γ δ))
    (hl : iter p = .ok l) (s : Py.Slice) :
    (∀ xs, Py.getSlice l s = some xs → Yields p (getBySlice sub p s) xs) ∧
    (Py.getSlice l s = none → getBySlice sub p s = .error .valueError) := by
  have hi := h.inv
  have hla : l = abs p := by rw [iter_eq hi] at hl; cases hl; rfl
  subst hla
  unfold getBySlice Py.getSlice
  rw [order_length hi]
  cases hps : s.positions (abs p).length with
  | none => simp
  | some ps =>
    simp only [Option.map_some, Option.some.injEq, reduceCtorEq, false_implies, and_true]
    rintro xs rfl
    obtain ⟨hnd, hlt⟩ := slice_positions_nodup s _ ps hps
    have hlook : lookupAll p.items (ps.filterMap (fun k => p.order[k]?)) =
        .ok (ps.filterMap (fun k => (abs p)[k]?)) := by
      rw [lookupAll_eq, abs_filterMap_getElem? hi]
      intro u hu
      obtain ⟨k, -, hk⟩ := List.mem_filterMap.1 hu
      exact (hi.mem_iff u).1 (List.mem_of_getElem? hk)
    rw [hlook]
    exact derived_yields sub h.typed _ (fun x hx => mem_filterMap_abs hi hx)
      (filterMap_getElem?_nodup (abs_nodup hi) hnd)

/-- C09 (slice), against the description of slices in the language reference: the new pile holds, in order, the
items at the positions picked by the slice (`Py.Picks`); it is refused, with `ValueError`, exactly for a zero step. -/
theorem C09_slice_picks (sub : γ → γ → Bool) (p : Pile ι γ δ) (h : Reachable sub p) (l : List (Item ι γ δ))
    (hl : iter p = .ok l) (s : Py.Slice) :
    (s.step ≠ some 0 → ∃ xs ps, Py.Picks s l.length ps ∧ xs.map some = ps.map (fun k => l[k]?) ∧
      Yields p (getBySlice sub p s) xs) ∧
    (s.step = some 0 → getBySlice sub p s = .error .valueError) := by
  obtain ⟨h1, h2⟩ := C09_slice sub p h l hl s
  constructor
  · intro hk
    cases hg : Py.getSlice l s with
    | none =>
      unfold Py.getSlice at hg
      cases hp : s.positions l.length with
      | none => exact absurd ((Py.positions_none s _).1 hp) hk
      | some ps => rw [hp] at hg; cases hg
    | some xs =>
      obtain ⟨-, ps, hp, hx⟩ := (Py.getSlice_iff l s xs).1 hg
      exact ⟨xs, ps, hp, hx, h1 xs hg⟩
  · intro hk
    refine h2 ?_
    unfold Py.getSlice
    rw [(Py.positions_none s _).2 hk]; rfl

/-- C09 (slice): sanity of the slice semantics used in `C09_slice`: `l[a:b]` with `0 ≤ a ≤ b ≤ len` is the usual
contiguous segment. -/
theorem C09_slice_segment (l : List (Item ι γ δ)) (a b : Nat) (hab : a ≤ b) (hb : b ≤ l.length) :
    Py.getSlice l { start := some a, stop := some b } = some ((l.take b).drop a) := by
  unfold Py.getSlice Py.Slice.positions
  simp only [Option.getD_none, show ¬ ((1 : Int) = 0) by decide, if_false, Py.Slice.adjust,
    show ¬ ((1 : Int) < 0) by decide]
  have e1 : (if (a : Int) < 0 then (if (a : Int) + l.length < 0 then (0:Int) else (a : Int) + l.length)
      else if (a : Int) ≥ l.length then (l.length : Int) else a) = a := by
    split <;> (try split) <;> omega
  have e2 : (if (b : Int) < 0 then (if (b : Int) + l.length < 0 then (0:Int) else (b : Int) + l.length)
      else if (b : Int) ≥ l.length then (l.length : Int) else b) = b := by
    split <;> (try split) <;> omega
  simp only [e1, e2]
  have ec : Py.Slice.count (a : Int) b 1 = b - a := by
    unfold Py.Slice.count
    simp only [show ¬ ((1 : Int) < 0) by decide, if_false, Int.ediv_one]
    split <;> omega
  rw [ec]
  simp only [Option.map_some, Option.some.injEq, List.filterMap_map]
  clear e1 e2 ec
  apply List.ext_getElem?
  intro k
  have hfm : ∀ n, n ≤ b - a → (List.range n).filterMap ((fun p => l[p]?) ∘ fun k : Nat => ((a : Int) + (k : Int) * 1).toNat) =
      ((l.drop a).take n) := by
    intro n
    induction n with
    | zero => simp
    | succ n ih =>
      intro hn
      rw [List.range_succ, List.filterMap_append, ih (by omega), List.take_add_one]
      congr 1
      have hlt : a + n < l.length := by omega
      have : ((a : Int) + (n : Int) * 1).toNat = a + n := by omega
      simp only [List.filterMap_cons, List.filterMap_nil, Function.comp, this, List.getElem?_drop]
      rw [List.getElem?_eq_getElem hlt]; rfl
  rw [hfm _ (Nat.le_refl _), List.drop_take]

/-- C09 (progression): if every id of the progression is in the pile and none repeats, `pile[progression]` yields the
items in the progression's order; a missing id gives `NotFoundError`; a repeated one `ExistsError`. -/
theorem C09_progression (sub : γ → γ → Bool) (p : Pile ι γ δ) (h : Reachable sub p) (us : List ι) :
    ((∀ u ∈ us, contains p (some u) = true) → us.Nodup →
      ∃ xs, xs.map Item.id = us ∧ (∀ x ∈ xs, get p (some x.id) false = .ok (some x)) ∧
        Yields p (filterByProgression sub p us) xs) ∧
    ((∃ u ∈ us, contains p (some u) = false) → filterByProgression sub p us = .error .notFound) ∧
    ((∀ u ∈ us, contains p (some u) = true) → ¬ us.Nodup → filterByProgression sub p us = .error .exists_) := by
  have hi := h.inv
  have hmem : ∀ x ∈ us.filterMap p.items.get?, ∃ u, p.items.get? u = some x := by
    intro x hx
    obtain ⟨u, -, hu⟩ := List.mem_filterMap.1 hx
    exact ⟨u, hu⟩
  have hany : (∀ u ∈ us, contains p (some u) = true) → us.any (fun u => !p.items.has u) = false := by
    intro hc
    rw [List.any_eq_false]
    intro u hu
    have := hc u hu
    simp only [contains] at this
    simp [this]
  have hids : (∀ u ∈ us, contains p (some u) = true) → (us.filterMap p.items.get?).map Item.id = us :=
    fun hc => filterMap_ids hi.ids (fun u hu => hc u hu)
  have hlook : (∀ u ∈ us, contains p (some u) = true) →
      lookupAll p.items us = .ok (us.filterMap p.items.get?) :=
    fun hc => lookupAll_eq (fun u hu => (Dict.has_iff _ _).1 (hc u hu))
  refine ⟨?_, ?_, ?_⟩
  · intro hc hn
    refine ⟨us.filterMap p.items.get?, hids hc, ?_, ?_⟩
    · intro x hx
      obtain ⟨u, hu⟩ := hmem x hx
      have := hi.ids u x hu; subst this
      simp [get, hu]
    · simp only [filterByProgression, hany hc, hlook hc, Bool.false_eq_true, if_false]
      exact derived_yields sub h.typed _ hmem (by rw [hids hc]; exact hn)
  · rintro ⟨u, hu, hc⟩
    have : us.any (fun u => !p.items.has u) = true := by
      rw [List.any_eq_true]
      refine ⟨u, hu, ?_⟩
      simp only [contains] at hc; simp [hc]
    simp [filterByProgression, this]
  · intro hc hn
    simp only [filterByProgression, hany hc, hlook hc, Bool.false_eq_true, if_false]
    exact derived_dup sub h.typed _ hmem (by rw [hids hc]; exact hn)

/-- C09 (predicate): `pile[f]` yields exactly the items satisfying `f`, in pile order. -/
theorem C09_predicate (sub : γ → γ → Bool) (p : Pile ι γ δ) (h : Reachable sub p) (l : List (Item ι γ δ))
    (hl : iter p = .ok l) (f : Item ι γ δ → Bool) : Yields p (filterByFunction sub p f) (l.filter f) := by
  have hi := h.inv
  have hla : l = abs p := by rw [iter_eq hi] at hl; cases hl; rfl
  subst hla
  simp only [filterByFunction, iter_eq hi]
  apply derived_yields sub h.typed
  · intro x hx
    exact ⟨x.id, (mem_abs hi x).1 (List.mem_filter.1 hx).1⟩
  · exact (List.Sublist.map Item.id List.filter_sublist).nodup (abs_nodup hi)

/-- C09 (type filter): `filter_by_type(ts)`, when the requested types are compatible with the constraint, yields exactly
the instances of the requested types in pile order, and raises `NotFoundError` when there are none; it raises
`TypeError` when some requested type is not compatible. -/
theorem C09_filter_by_type (sub : γ → γ → Bool) (p : Pile ι γ δ) (h : Reachable sub p) (l : List (Item ι γ δ))
    (hl : iter p = .ok l) (ts : List γ) :
    let compatible := ∀ as, p.itemType = some as → ∀ t ∈ ts,
      if p.strict then t ∈ as else ∃ a ∈ as, sub t a = true ∨ sub a t = true
    let sel := l.filter (fun x => ts.any (fun t => sub x.cls t))
    (compatible → sel ≠ [] → Yields p (filterByType sub p ts) sel) ∧
    (compatible → sel = [] → filterByType sub p ts = .error .notFound) ∧
    (¬ compatible → filterByType sub p ts = .error .typeError) := by
  intro compatible sel
  have hi := h.inv
  have hla : l = abs p := by rw [iter_eq hi] at hl; cases hl; rfl
  have hall : typesAllowed sub p ts = true ↔ compatible := by
    show _ ↔ (∀ as, p.itemType = some as → ∀ t ∈ ts,
      if p.strict then t ∈ as else ∃ a ∈ as, sub t a = true ∨ sub a t = true)
    unfold typesAllowed
    cases p.itemType with
    | none => simp
    | some as => cases p.strict <;> simp
  refine ⟨?_, ?_, ?_⟩
  · intro hc hne
    have := hall.2 hc
    simp only [filterByType, this, iter_eq hi]
    rw [← hla]
    have : sel.isEmpty = false := by cases hs : sel with
      | nil => exact absurd hs hne
      | cons a b => rfl
    simp only [Bool.true_eq_false, if_false]
    show Yields p (if sel.isEmpty = true then _ else _) sel
    rw [this]
    simp only [Bool.false_eq_true, if_false]
    apply derived_yields sub h.typed
    · intro x hx
      have := (List.mem_filter.1 hx).1
      rw [hla] at this
      exact ⟨x.id, (mem_abs hi x).1 this⟩
    · refine (List.Sublist.map Item.id List.filter_sublist).nodup ?_
      rw [hla]; exact abs_nodup hi
  · intro hc he
    have := hall.2 hc
    simp only [filterByType, this, iter_eq hi]
    rw [← hla]
    simp only [Bool.true_eq_false, if_false]
    show (if sel.isEmpty = true then _ else _) = _
    rw [he]; rfl
  · intro hc
    have : ¬ typesAllowed sub p ts = true := fun hx => hc (hall.1 hx)
    simp only [Bool.not_eq_true] at this
    simp only [filterByType, this, if_true]

theorem getAll_eq {p : Pile ι γ δ} (us : List ι) (hc : ∀ u ∈ us, u ∈ p.items.keys) :
    getAll p (us.map some) = .ok (us.filterMap p.items.get?) := by
  induction us with
  | nil => rfl
  | cons u us ih =>
    obtain ⟨x, hx⟩ := Option.isSome_iff_exists.1 ((Dict.get?_isSome_iff _ _).2 (hc u (by simp)))
    simp only [List.map_cons, getAll, get, hx, List.filterMap_cons]
    rw [ih (fun v hv => hc v (by simp [hv]))]

theorem filterMap_map_id {A B : Type} (f : A → B) (g : B → Option A) (h : ∀ a, g (f a) = some a) (l : List A) :
    (l.map f).filterMap g = l := by
  induction l with
  | nil => rfl
  | cons a l ih => simp [h, ih]

/-- C09 (list of ids): `pile[[u₁, ..., uₙ]]` with distinct stored ids yields their items in the given order; an empty
list is a `ValueError`; a repeated id an `ExistsError`. -/
theorem C09_id_list (sub : γ → γ → Bool) (p : Pile ι γ δ) (h : Reachable sub p) (us : List ι)
    (hc : ∀ u ∈ us, contains p (some u) = true) :
    (us = [] → getByList sub p (us.map fun u => Key.id (some u)) = .error .valueError) ∧
    (us ≠ [] → us.Nodup → ∃ xs, xs.map Item.id = us ∧ (∀ x ∈ xs, get p (some x.id) false = .ok (some x)) ∧
      Yields p (getByList sub p (us.map fun u => Key.id (some u))) xs) ∧
    (¬ us.Nodup → getByList sub p (us.map fun u => Key.id (some u)) = .error .exists_) := by
  have hi := h.inv
  have hmem : ∀ x ∈ us.filterMap p.items.get?, ∃ u, p.items.get? u = some x := by
    intro x hx
    obtain ⟨u, -, hu⟩ := List.mem_filterMap.1 hx
    exact ⟨u, hu⟩
  have hids : (us.filterMap p.items.get?).map Item.id = us := filterMap_ids hi.ids (fun u hu => hc u hu)
  have hga := getAll_eq (p := p) us (fun u hu => (Dict.has_iff _ _).1 (hc u hu))
  have heq : us ≠ [] → getByList sub p (us.map fun u => Key.id (some u)) =
      derived sub p (us.filterMap p.items.get?) := by
    intro hne
    cases us with
    | nil => exact absurd rfl hne
    | cons u us =>
      have hall : ((u :: us).map fun u => Key.id (some u)).all Key.isId = true := by
        rw [List.all_eq_true]; intro k hk
        obtain ⟨v, -, rfl⟩ := List.mem_map.1 hk; rfl
      have hfm : ((u :: us).map fun u => Key.id (some u)).filterMap Key.toRef? = (u :: us).map some := by
        generalize u :: us = vs
        induction vs with
        | nil => rfl
        | cons v vs ih => simp only [List.map_cons, List.filterMap_cons, ih, Key.toRef?, Key.toInt?]
      unfold getByList
      simp only [List.map_cons] at hall hfm hga ⊢
      rw [if_pos hall, hfm, hga]
  refine ⟨?_, ?_, ?_⟩
  · rintro rfl; rfl
  · intro hne hn
    refine ⟨_, hids, ?_, ?_⟩
    · intro x hx
      obtain ⟨u, hu⟩ := hmem x hx
      have := hi.ids u x hu; subst this
      simp [get, hu]
    · rw [heq hne]
      exact derived_yields sub h.typed _ hmem (by rw [hids]; exact hn)
  · intro hn
    have hne : us ≠ [] := by rintro rfl; exact hn List.nodup_nil
    rw [heq hne]
    exact derived_dup sub h.typed _ hmem (by rw [hids]; exact hn)

/-- C09 (list of ids): mixing kinds of keys is a `TypeError`. -/
theorem C09_list_mixing (sub : γ → γ → Bool) (p : Pile ι γ δ) (ks : List (Key ι)) (i : Int) (r : Ref ι)
    (h1 : Key.int i ∈ ks) (h2 : Key.id r ∈ ks) : getByList sub p ks = .error .typeError := by
  cases ks with
  | nil => cases h1
  | cons k ks =>
    cases k with
    | int j =>
      have : ((Key.int j :: ks).all Key.isInt) = false := by
        rw [List.all_eq_false]; exact ⟨_, h2, by simp [Key.isInt]⟩
      simp [getByList, this]
    | id j =>
      have : ((Key.id j :: ks).all Key.isId) = false := by
        rw [List.all_eq_false]; exact ⟨_, h1, by simp [Key.isId]⟩
      simp [getByList, this]
    | other => rfl

theorem indexAll_eq {p : Pile ι γ δ} (hi : Inv p) (is : List (Int × Nat))
    (ha : ∀ x ∈ is, Progression.Addresses (abs p).length x.1 x.2) :
    indexAll p (is.map Prod.fst) = .ok (is.filterMap (fun x => (abs p)[x.2]?)) := by
  induction is with
  | nil => rfl
  | cons x is ih =>
    have hk := ha x (by simp)
    have hk' := hk
    rw [← order_length hi] at hk'
    have h1 : Py.getIdx p.order x.1 = p.order[x.2]? := by
      unfold Py.getIdx
      rw [(Progression.normIndex_eq_some_iff _ _ _).2 hk']
    have h2 := getElem?_abs hi x.2
    rw [List.getElem?_eq_getElem hk.1, List.getElem?_eq_getElem hk'.1] at h2
    simp only [Option.bind_some] at h2
    simp only [List.map_cons, indexAll, getByIndex, h1, List.getElem?_eq_getElem hk'.1, ← h2,
      List.filterMap_cons, List.getElem?_eq_getElem hk.1]
    rw [ih (fun y hy => ha y (by simp [hy]))]

/-- C09 (list of indices): `pile[[i₁, ..., iₙ]]` with indices addressing distinct positions yields the items at those
positions in the given order; two indices addressing one position give `ExistsError`. -/
theorem C09_index_list (sub : γ → γ → Bool) (p : Pile ι γ δ) (h : Reachable sub p) (l : List (Item ι γ δ))
    (hl : iter p = .ok l) (is : List (Int × Nat)) (hne : is ≠ [])
    (ha : ∀ x ∈ is, Progression.Addresses l.length x.1 x.2) :
    ((is.map Prod.snd).Nodup →
      Yields p (getByList sub p (is.map fun x => Key.int x.1)) ((is.map Prod.snd).filterMap (fun k => l[k]?))) ∧
    (¬ (is.map Prod.snd).Nodup → getByList sub p (is.map fun x => Key.int x.1) = .error .exists_) := by
  have hi := h.inv
  have hla : l = abs p := by rw [iter_eq hi] at hl; cases hl; rfl
  subst hla
  have heq : getByList sub p (is.map fun x => Key.int x.1) =
      derived sub p ((is.map Prod.snd).filterMap (fun k => (abs p)[k]?)) := by
    have hia := indexAll_eq hi is ha
    cases is with
    | nil => exact absurd rfl hne
    | cons x is =>
      have hall : ((x :: is).map fun x => (Key.int x.1 : Key ι)).all Key.isInt = true := by
        rw [List.all_eq_true]; intro k hk
        obtain ⟨v, -, rfl⟩ := List.mem_map.1 hk; rfl
      have hfm : ((x :: is).map fun x => (Key.int x.1 : Key ι)).filterMap Key.toInt? = (x :: is).map Prod.fst := by
        generalize x :: is = vs
        induction vs with
        | nil => rfl
        | cons v vs ih => simp only [List.map_cons, List.filterMap_cons, ih, Key.toRef?, Key.toInt?]
      unfold getByList
      simp only [List.map_cons] at hall hfm hia ⊢
      rw [if_pos hall, hfm, hia]
      simp only [← List.map_cons, List.filterMap_map]
      rfl
  have hmem : ∀ x ∈ (is.map Prod.snd).filterMap (fun k => (abs p)[k]?), ∃ u, p.items.get? u = some x :=
    fun x hx => mem_filterMap_abs hi hx
  constructor
  · intro hn
    rw [heq]
    exact derived_yields sub h.typed _ hmem (filterMap_getElem?_nodup (abs_nodup hi) hn)
  · intro hn
    rw [heq]
    apply derived_dup sub h.typed _ hmem
    intro hnd
    apply hn
    have hlt : ∀ k ∈ is.map Prod.snd, k < (abs p).length := by
      intro k hk
      obtain ⟨x, hx, rfl⟩ := List.mem_map.1 hk
      exact (ha x hx).1
    clear heq hmem hn ha hne
    generalize is.map Prod.snd = ks at *
    induction ks with
    | nil => exact List.nodup_nil
    | cons k ks ih =>
      have hk := hlt k (by simp)
      simp only [List.filterMap_cons, List.getElem?_eq_getElem hk, List.map_cons, List.nodup_cons] at hnd
      rw [List.nodup_cons]
      refine ⟨?_, ih hnd.2 (fun j hj => hlt j (by simp [hj]))⟩
      intro hm
      apply hnd.1
      rw [List.mem_map]
      exact ⟨_, List.mem_filterMap.2 ⟨k, hm, List.getElem?_eq_getElem hk⟩, rfl⟩

/-- Non-vacuity for C09. -/
example : Reachable (fun _ _ => true)
    ({ items := [(1, w1), (2, w2)], order := [1, 2] } : Pile Nat Unit Unit) :=
  ⟨[some w1, some w2], none, false, { items := [(1, w1), (2, w2)], order := [1, 2] }, [], by decide, rfl⟩

/-! ## C10: serialisation round trip -/

theorem loadAll_map (load : String → Option γ) (clsName : γ → String) (ts : List γ)
    (h : ∀ c ∈ ts, load (clsName c) = some c) : loadAll load (ts.map clsName) = some ts := by
  induction ts with
  | nil => rfl
  | cons c cs ih =>
    simp only [List.map_cons, loadAll, h c (by simp), ih (fun d hd => h d (by simp [hd]))]

theorem addDecoded_eq {D : Type} (sub : γ → γ → Bool) (dec : D → Except Exc (Item ι γ δ)) (enc : Item ι γ δ → D)
    (p : Pile ι γ δ) (l : List (Item ι γ δ)) (h : ∀ x ∈ l, dec (enc x) = .ok x) :
    addDecoded sub dec p (l.map enc) = addAll sub p (l.map some) := by
  induction l generalizing p with
  | nil => rfl
  | cons x xs ih =>
    simp only [List.map_cons, addDecoded, addAll, h x (by simp)]
    cases hadd : add sub p (some x) with
    | mk p' r =>
      cases r with
      | error e => rfl
      | ok u => exact ih p' (fun y hy => h y (by simp [hy]))

/-- C10 for piles whose constraint is not the empty set and whose progression name is `None` (with no user metadata
entry `progression_name`) or non-empty: `from_dict(to_dict(pile))` succeeds and gives back the items, the order,
the constraint, the strictness and the name.  Not covered: the empty constraint set and the cases
of `C10_name_limit`, where the claim is false (`C10_empty_constraint_limit`). -/
theorem C10_round_trip {D : Type} (sub : γ → γ → Bool) (clsName : γ → String) (load : String → Option γ)
    (enc : Item ι γ δ → D) (dec : D → Except Exc (Item ι γ δ)) (lionClass : D → Option String)
    (metaName : Option String) (p : Pile ι γ δ) (h : Reachable sub p) (n : Option String)
    (hdec : ∀ x, dec (enc x) = .ok x)
    (hcls : ∀ x, lionClass (enc x) = none ∨ lionClass (enc x) = some (clsName x.cls))
    (hload : ∀ c, load (clsName c) = some c)
    (hne : p.itemType ≠ some [])
    (hname : (n = none ∧ metaName = none) ∨ ∃ s, n = some s ∧ s ≠ "") :
    ∃ d q l, toDict clsName enc metaName { p with pname := n } = .ok d ∧
      fromDict sub load lionClass dec d = .ok q ∧
      iter { p with pname := n } = .ok l ∧ iter q = .ok l ∧ keys q = keys p ∧
      q.itemType = p.itemType ∧ q.strict = p.strict ∧ q.pname = n := by
  have hi : Inv p := h.inv
  have hi' : Inv { p with pname := n } := ⟨hi.wf, hi.nodup, hi.mem_iff, hi.ids⟩
  have habs : abs { p with pname := n } = abs p := rfl
  have ht := h.typed
  have htr : truthyName ((truthyName n).or metaName) = n := by
    rcases hname with ⟨rfl, rfl⟩ | ⟨s, rfl, hs⟩
    · rfl
    · simp [truthyName, hs]
  have hvalid : ∀ x ∈ abs p, validType sub p.itemType p.strict x = true :=
    fun x hx => ht _ _ ((mem_abs hi x).1 hx)
  let p₁ : Pile ι γ δ := { itemType := p.itemType, strict := p.strict, pname := n }
  have hp₁ : Inv p₁ := inv_empty _ _ _
  obtain ⟨q, hq⟩ := addAll_ok sub hp₁ (abs p) hvalid (abs_nodup hi) (by simp [p₁, Dict.keys])
  obtain ⟨hqi, hq1, hq2, hq3, hqa⟩ := addAll_spec sub hp₁ _ q hq
  have hqabs : abs q = abs p := by
    have : (abs q).map some = (abs p).map some := by simpa [abs, p₁] using hqa
    exact (List.map_inj_right (fun _ _ h => Option.some.inj h)).1 this
  have hd : toDict clsName enc metaName { p with pname := n } = .ok {
      itemType := p.itemType.map (fun ts => ts.map clsName)
      strict := p.strict
      progressionName := (truthyName n).or metaName
      items := (abs p).map enc } := by
    simp only [toDict, iter_eq hi', habs]
  refine ⟨_, q, abs p, hd, ?_, by rw [iter_eq hi', habs], ?_, ?_, hq1, hq2, hq3⟩
  · have hpre : ∀ ts, p.itemType = some ts → ((abs p).map enc).all (precheck sub load lionClass ts p.strict) = true := by
      intro ts hts
      rw [List.all_eq_true]
      intro d hd
      obtain ⟨x, hx, rfl⟩ := List.mem_map.1 hd
      have hv := hvalid x hx
      rw [hts] at hv
      rcases hcls x with hn | hs
      · simp only [precheck, hn]
      · simp only [precheck, hs, hload]
        simpa [validType] using hv
    unfold fromDict
    simp only [htr]
    cases hts : p.itemType with
    | none =>
      simp only [Option.map_none, itemTypeData, loadTypes, precheckAll, Bool.true_eq_false, if_false]
      rw [addDecoded_eq sub dec enc _ _ (fun x _ => hdec x)]
      simpa [p₁, hts] using hq
    | some ts =>
      cases ts with
      | nil => exact absurd hts hne
      | cons c cs =>
        have hl := loadAll_map load clsName (c :: cs) (fun d _ => hload d)
        simp only [Option.map_some, List.map_cons] at hl ⊢
        simp only [itemTypeData, loadTypes, hl]
        have hpa : precheckAll sub load lionClass (some (c :: cs)) p.strict ((abs p).map enc) = true := hpre _ hts
        rw [if_neg (by simp [hpa])]
        rw [addDecoded_eq sub dec enc _ _ (fun x _ => hdec x)]
        simpa [p₁, hts] using hq
  · rw [iter_eq hqi, hqabs]
  · show q.order = p.order
    rw [← abs_ids hqi, ← abs_ids hi, hqabs]

/-- Non-vacuity for C10: classes are numbers named "a", "aa", ...; items are their own encoding. -/
example : ∃ d, toDict (fun c : Nat => String.ofList (List.replicate c 'a')) (id : Item Nat Nat Nat → _) none
    { items := [(7, ⟨7, 2, 0⟩)], order := [7], pname := some "main", itemType := some [2], strict := true } = .ok d ∧
    d.progressionName = some "main" ∧ d.itemType = some ["aa"] := ⟨_, rfl, by decide, by decide⟩

/-- Outside the domain of C10: an empty (all-rejecting) constraint set comes back as no constraint at all, so a pile that
refuses every item becomes a pile that accepts every item. -/
theorem C10_empty_constraint_limit :
    let p : Pile Nat Nat Nat := { itemType := some [], strict := false }
    ∃ d q, toDict (fun _ => "m.C") (id : Item Nat Nat Nat → _) none p = .ok d ∧
      fromDict (fun _ _ => true) (fun _ => some 0) (fun _ => none) (fun x => .ok x) d = .ok q ∧
      (add (fun _ _ => true) p (some ⟨1, 0, 0⟩)).2 = .error .typeError ∧
      (add (fun _ _ => true) q (some ⟨1, 0, 0⟩)).2 = .ok () :=
  ⟨_, _, rfl, rfl, by decide, by decide⟩

/-- Outside the domain of C10: an unnamed pile whose metadata happens to hold a key `progression_name` comes back with that
name, and an empty name comes back as `None`. -/
theorem C10_name_limit :
    (∃ d q, toDict (fun _ => "m.C") (id : Item Nat Nat Nat → _) (some "x") ({} : Pile Nat Nat Nat) = .ok d ∧
      fromDict (fun _ _ => true) (fun _ => some 0) (fun _ => none) (fun x => .ok x) d = .ok q ∧ q.pname = some "x") ∧
    (∃ d q, toDict (fun _ => "m.C") (id : Item Nat Nat Nat → _) none ({ pname := some "" } : Pile Nat Nat Nat) = .ok d ∧
      fromDict (fun _ _ => true) (fun _ => some 0) (fun _ => none) (fun x => .ok x) d = .ok q ∧ q.pname = none) :=
  ⟨⟨_, _, rfl, rfl, by decide⟩, ⟨_, _, rfl, rfl, by decide⟩⟩

end Verif.Pile
