import Verif.Spec.OrderedMap
import Verif.Py.ListLemmas

/-! # Helper lemmas for the `Pile` properties -/

set_option linter.unusedSectionVars false
set_option linter.unusedSimpArgs false

namespace Verif.Pile

variable {ι γ δ : Type} [DecidableEq ι] [DecidableEq γ]

/-- Order and contents agree: the order lists every stored id once, and every item is stored under its id. -/
structure Inv (p : Pile ι γ δ) : Prop where
  wf : p.items.WF
  nodup : p.order.Nodup
  mem_iff : ∀ u, u ∈ p.order ↔ u ∈ p.items.keys
  ids : ∀ u x, p.items.get? u = some x → x.id = u

/-- The items in iteration order. -/
def abs (p : Pile ι γ δ) : List (Item ι γ δ) := p.order.filterMap p.items.get?

theorem lookupAll_eq {d : Dict ι (Item ι γ δ)} {us : List ι} (h : ∀ u ∈ us, u ∈ d.keys) :
    lookupAll d us = .ok (us.filterMap d.get?) := by
  induction us with
  | nil => rfl
  | cons u us ih =>
    have hu := h u (by simp)
    rw [← Dict.get?_isSome_iff] at hu
    obtain ⟨x, hx⟩ := Option.isSome_iff_exists.1 hu
    simp only [lookupAll, hx, List.filterMap_cons]
    rw [ih (fun v hv => h v (by simp [hv]))]

theorem iter_eq {p : Pile ι γ δ} (h : Inv p) : iter p = .ok (abs p) :=
  lookupAll_eq (fun u hu => (h.mem_iff u).1 hu)

theorem filterMap_ids {g : ι → Option (Item ι γ δ)} {os : List ι}
    (hid : ∀ u x, g u = some x → x.id = u) (hdef : ∀ u ∈ os, (g u).isSome = true) :
    (os.filterMap g).map Item.id = os := by
  induction os with
  | nil => rfl
  | cons u us ih =>
    obtain ⟨x, hx⟩ := Option.isSome_iff_exists.1 (hdef u (by simp))
    simp only [List.filterMap_cons, hx, List.map_cons, hid u x hx]
    rw [ih (fun v hv => hdef v (by simp [hv]))]

theorem isSome_of_order {p : Pile ι γ δ} (h : Inv p) : ∀ u ∈ p.order, (p.items.get? u).isSome = true :=
  fun u hu => (Dict.get?_isSome_iff _ _).2 ((h.mem_iff u).1 hu)

theorem abs_ids {p : Pile ι γ δ} (h : Inv p) : (abs p).map Item.id = p.order :=
  filterMap_ids h.ids (isSome_of_order h)

theorem abs_nodup {p : Pile ι γ δ} (h : Inv p) : ((abs p).map Item.id).Nodup := by
  rw [abs_ids h]; exact h.nodup

theorem find?_filterMap {g : ι → Option (Item ι γ δ)} {os : List ι}
    (hid : ∀ u x, g u = some x → x.id = u) (u : ι) :
    (os.filterMap g).find? (fun x => decide (x.id = u)) = if u ∈ os then g u else none := by
  induction os with
  | nil => rfl
  | cons v vs ih =>
    simp only [List.filterMap_cons]
    cases hv : g v with
    | none =>
      simp only [ih, List.mem_cons]
      by_cases h : u = v
      · subst h; simp [hv]
      · simp [h]
    | some x =>
      simp only [List.find?_cons, hid v x hv, List.mem_cons]
      by_cases h : v = u
      · subst h; simp [hv]
      · simp [h, ih, Ne.symm h]

theorem lookup_abs {p : Pile ι γ δ} (h : Inv p) (u : ι) : OMap.lookup (abs p) u = p.items.get? u := by
  unfold OMap.lookup abs
  rw [find?_filterMap h.ids]
  split
  · rfl
  · next hu =>
    rw [h.mem_iff] at hu
    exact ((Dict.get?_eq_none_iff _ _).2 hu).symm

theorem has_iff_lookup {p : Pile ι γ δ} (h : Inv p) (u : ι) :
    p.items.has u = (OMap.lookup (abs p) u).isSome := by
  rw [lookup_abs h]; rfl

theorem abs_length {p : Pile ι γ δ} (h : Inv p) : (abs p).length = p.items.length := by
  have h1 : (abs p).length = p.order.length := by
    have := congrArg List.length (abs_ids h); simpa using this
  have h2 : p.order.Perm p.items.keys := by
    rw [List.perm_ext_iff_of_nodup h.nodup h.wf]; exact h.mem_iff
  rw [h1, h2.length_eq]; simp [Dict.keys]

theorem filterMap_erase {g : ι → Option (Item ι γ δ)} {os : List ι}
    (hid : ∀ u x, g u = some x → x.id = u) (u : ι) :
    (os.filter (fun v => decide (v ≠ u))).filterMap (fun v => if u = v then none else g v) =
      (os.filterMap g).filter (fun x => decide (x.id ≠ u)) := by
  induction os with
  | nil => rfl
  | cons v vs ih =>
    simp only [List.filterMap_cons]
    by_cases h : v = u
    · subst h
      simp only [List.filter_cons, ne_eq, not_true_eq_false, decide_false, Bool.false_eq_true, if_false]
      rw [show (vs.filter fun w => decide (¬ w = v)) = vs.filter (fun w => decide (w ≠ v)) from rfl, ih]
      cases hv : g v with
      | none => rfl
      | some x => simp [List.filter_cons, hid v x hv]
    · simp only [List.filter_cons, ne_eq, h, not_false_eq_true, decide_true, if_true, List.filterMap_cons,
        Ne.symm h, if_false]
      rw [show (vs.filter fun w => decide (¬ w = u)) = vs.filter (fun w => decide (w ≠ u)) from rfl, ih]
      cases hv : g v with
      | none => simp
      | some x => simp [List.filter_cons, hid v x hv, h]

theorem filterMap_set {g : ι → Option (Item ι γ δ)} {os : List ι} {x : Item ι γ δ}
    (hid : ∀ u x, g u = some x → x.id = u) (hdef : ∀ u ∈ os, (g u).isSome = true) :
    os.filterMap (fun v => if x.id = v then some x else g v) = OMap.replace (os.filterMap g) x := by
  unfold OMap.replace
  induction os with
  | nil => rfl
  | cons v vs ih =>
    obtain ⟨y, hy⟩ := Option.isSome_iff_exists.1 (hdef v (by simp))
    simp only [List.filterMap_cons, hy, List.map_cons]
    rw [← ih (fun w hw => hdef w (by simp [hw])), hid v y hy]
    by_cases h : v = x.id
    · simp [h]
    · simp [h, Ne.symm h]

theorem abs_add {p : Pile ι γ δ} (h : Inv p) (x : Item ι γ δ) (hx : x.id ∉ p.items.keys) :
    Inv { p with items := p.items.set x.id x, order := p.order ++ [x.id] } ∧
    abs { p with items := p.items.set x.id x, order := p.order ++ [x.id] } = abs p ++ [x] := by
  have hxo : x.id ∉ p.order := fun hm => hx ((h.mem_iff _).1 hm)
  constructor
  · constructor
    · exact Dict.set_wf h.wf _ _
    · show (p.order ++ [x.id]).Nodup
      rw [List.nodup_append]
      refine ⟨h.nodup, by simp, ?_⟩
      intro a ha b hb; simp at hb; subst hb; rintro rfl; exact hxo ha
    · intro u
      show u ∈ p.order ++ [x.id] ↔ _
      rw [Dict.mem_keys_set, List.mem_append, h.mem_iff]; simp [or_comm]
    · intro u y hy
      simp only [Dict.get?_set] at hy
      split at hy
      · next he => injection hy with hy; subst hy; exact he
      · exact h.ids u y hy
  · unfold abs
    simp only [List.filterMap_append, List.filterMap_cons, List.filterMap_nil, Dict.get?_set, if_true]
    congr 1
    apply filterMap_congr'
    intro u hu
    have : x.id ≠ u := by rintro rfl; exact hxo hu
    simp [Dict.get?_set, this]

theorem abs_del {p : Pile ι γ δ} (h : Inv p) (u : ι) :
    Inv { p with items := p.items.del u, order := p.order.erase u } ∧
    abs { p with items := p.items.del u, order := p.order.erase u } = OMap.without (abs p) u := by
  constructor
  · constructor
    · exact Dict.del_wf h.wf _
    · exact h.nodup.erase u
    · intro v
      show v ∈ p.order.erase u ↔ _
      rw [Dict.mem_keys_del h.wf, List.Nodup.mem_erase_iff h.nodup, h.mem_iff]
    · intro v y hy
      simp only [Dict.get?_del h.wf] at hy
      split at hy
      · cases hy
      · exact h.ids v y hy
  · show (p.order.erase u).filterMap (Dict.get? (p.items.del u)) = _
    rw [show Dict.get? (p.items.del u) = fun v => if u = v then none else p.items.get? v from
      funext (fun v => Dict.get?_del h.wf u v)]
    unfold OMap.without abs
    rw [← filterMap_erase h.ids, List.Nodup.erase_eq_filter h.nodup]
    simp only [bne, ne_eq, decide_not]
    rfl

theorem abs_set {p : Pile ι γ δ} (h : Inv p) (x : Item ι γ δ) (hx : x.id ∈ p.items.keys) :
    Inv { p with items := p.items.set x.id x } ∧
    abs { p with items := p.items.set x.id x } = OMap.replace (abs p) x := by
  constructor
  · constructor
    · exact Dict.set_wf h.wf _ _
    · exact h.nodup
    · intro v
      show v ∈ p.order ↔ _
      rw [Dict.keys_set_of_mem _ hx, h.mem_iff]
    · intro u y hy
      simp only [Dict.get?_set] at hy
      split at hy
      · next he => injection hy with hy; subst hy; exact he
      · exact h.ids u y hy
  · show p.order.filterMap (Dict.get? (p.items.set x.id x)) = _
    rw [show Dict.get? (p.items.set x.id x) = fun v => if x.id = v then some x else p.items.get? v from
      funext (fun v => Dict.get?_set _ _ v _)]
    exact filterMap_set h.ids (isSome_of_order h)

theorem without_of_lookup_none {l : List (Item ι γ δ)} {u : ι} (h : OMap.lookup l u = none) :
    OMap.without l u = l := by
  unfold OMap.without
  rw [List.filter_eq_self]
  intro x hx
  unfold OMap.lookup at h
  rw [List.find?_eq_none] at h
  simpa using h x hx

theorem inv_empty (t : Option (List γ)) (s : Bool) (n : Option String) :
    Inv ({ itemType := t, strict := s, pname := n } : Pile ι γ δ) := by
  constructor
  · exact List.nodup_nil
  · exact List.nodup_nil
  · intro u; rfl
  · intro u x h; cases h

/-- Under the invariant, every call behaves as on the abstract map (the whole refinement step). -/
theorem step_refines (sub : γ → γ → Bool) {p : Pile ι γ δ} (h : Inv p) (op : Op ι γ δ) :
    Inv (step sub p op).1 ∧
    (abs (step sub p op).1, (step sub p op).2) =
      OMap.step (validType sub p.itemType p.strict) (abs p) op ∧
    (step sub p op).1.itemType = p.itemType ∧ (step sub p op).1.strict = p.strict ∧
    (step sub p op).1.pname = p.pname := by
  have hadd : ∀ x : Item ι γ δ, validType sub p.itemType p.strict x = true → p.items.has x.id = false →
      add sub p (some x) =
        ({ p with items := p.items.set x.id x, order := p.order ++ [x.id] }, .ok ()) := by
    intro x h1 h2; simp [add, h1, h2]
  cases op with
  | add a =>
    cases a with
    | none => simp [step, add, OMap.step, h, Except.map]
    | some x =>
      by_cases hv : validType sub p.itemType p.strict x = true
      · by_cases hh : p.items.has x.id = true
        · have hl := hh; rw [has_iff_lookup h] at hl
          simp [step, add, OMap.step, hv, hh, hl, h, Except.map]
        · simp only [Bool.not_eq_true] at hh
          have hl := hh; rw [has_iff_lookup h] at hl
          have := abs_add h x ((Dict.has_eq_false_iff _ _).1 hh)
          simp [step, hadd x hv hh, OMap.step, hv, hl, Except.map, this]
      · simp [step, add, OMap.step, hv, h, Except.map]
  | remove r =>
    cases r with
    | none => simp [step, remove, OMap.step, h, Except.map]
    | some u =>
      cases hg : p.items.get? u with
      | none => simp [step, remove, OMap.step, h, hg, lookup_abs h, Except.map]
      | some x =>
        have hu : u ∈ p.order := (h.mem_iff u).2 (Dict.mem_keys_of_get? hg)
        have := abs_del h u
        simp [step, remove, OMap.step, hg, lookup_abs h, Except.map, Progression.remove, hu, this]
  | pop r d =>
    cases r with
    | none => simp [step, pop, OMap.step, h, Except.map]
    | some u =>
      cases hg : p.items.get? u with
      | none => cases d <;> simp [step, pop, OMap.step, h, hg, lookup_abs h, Except.map, Out.ofOption]
      | some x =>
        have hu : u ∈ p.order := (h.mem_iff u).2 (Dict.mem_keys_of_get? hg)
        have := abs_del h u
        simp [step, pop, OMap.step, hg, lookup_abs h, Except.map, Progression.remove, hu, this, Out.ofOption]
  | get r d =>
    cases r with
    | none => simp [step, get, OMap.step, h, Except.map]
    | some u =>
      cases hg : p.items.get? u with
      | none => cases d <;> simp [step, get, OMap.step, h, hg, lookup_abs h, Except.map, Out.ofOption]
      | some x => simp [step, get, OMap.step, h, hg, lookup_abs h, Except.map, Out.ofOption]
  | update a =>
    cases a with
    | none => simp [step, update, OMap.step, h, Except.map]
    | some x =>
      by_cases hv : validType sub p.itemType p.strict x = true
      · by_cases hh : p.items.has x.id = true
        · have hl := hh; rw [has_iff_lookup h] at hl
          have := abs_set h x ((Dict.has_iff _ _).1 hh)
          simp [step, update, OMap.step, hv, hh, hl, Except.map, this]
        · simp only [Bool.not_eq_true] at hh
          have hl := hh; rw [has_iff_lookup h] at hl
          simp [step, update, OMap.step, hv, hh, hl, Except.map, h]
      · simp [step, update, OMap.step, hv, h, Except.map]
  | clear =>
    refine ⟨?_, rfl, rfl, rfl, rfl⟩
    constructor
    · exact List.nodup_nil
    · exact List.nodup_nil
    · intro u; rfl
    · intro u x hx; cases hx
  | include_ a =>
    cases a with
    | none => simp [step, include_, OMap.step, h, Except.map]
    | some x =>
      by_cases hh : p.items.has x.id = true
      · have hl := hh; rw [has_iff_lookup h] at hl
        simp [step, include_, OMap.step, hh, hl, h, Except.map]
      · simp only [Bool.not_eq_true] at hh
        have hl := hh; rw [has_iff_lookup h] at hl
        by_cases hv : validType sub p.itemType p.strict x = true
        · have := abs_add h x ((Dict.has_eq_false_iff _ _).1 hh)
          simp [step, include_, hadd x hv hh, hh, OMap.step, hv, hl, Except.map, this]
        · simp [step, include_, add, OMap.step, hv, h, hh, hl, Except.map]
  | exclude r =>
    cases r with
    | none => simp [step, exclude, OMap.step, h, Except.map]
    | some u =>
      cases hg : p.items.get? u with
      | none =>
        have hl : OMap.lookup (abs p) u = none := by rw [lookup_abs h]; exact hg
        simp [step, exclude, OMap.step, h, hg, Dict.has, Except.map, without_of_lookup_none hl]
      | some x =>
        have hu : u ∈ p.order := (h.mem_iff u).2 (Dict.mem_keys_of_get? hg)
        have := abs_del h u
        simp [step, exclude, remove, Dict.has, OMap.step, hg, Except.map, Progression.remove, hu, this]
  | contains r =>
    cases r with
    | none => simp [step, contains, OMap.step, h]
    | some u => simp [step, contains, OMap.step, h, has_iff_lookup h]
  | len => simp [step, len, OMap.step, h, abs_length h]
  | iter => simp [step, iter_eq h, OMap.step, h, Except.map]

theorem run_inv (sub : γ → γ → Bool) {p : Pile ι γ δ} (h : Inv p) (ops : List (Op ι γ δ)) :
    Inv (run sub p ops) := by
  induction ops generalizing p with
  | nil => exact h
  | cons op ops ih => exact ih (step_refines sub h op).1

theorem run_config (sub : γ → γ → Bool) {p : Pile ι γ δ} (h : Inv p) (ops : List (Op ι γ δ)) :
    (run sub p ops).itemType = p.itemType ∧ (run sub p ops).strict = p.strict ∧
      (run sub p ops).pname = p.pname := by
  induction ops generalizing p with
  | nil => exact ⟨rfl, rfl, rfl⟩
  | cons op ops ih =>
    have hs := step_refines sub h op
    have := ih hs.1
    exact ⟨this.1.trans hs.2.2.1, this.2.1.trans hs.2.2.2.1, this.2.2.trans hs.2.2.2.2⟩

theorem validType_iff (sub : γ → γ → Bool) (t : Option (List γ)) (s : Bool) (x : Item ι γ δ) :
    validType sub t s x = true ↔ OMap.Satisfies sub t s x := by
  unfold validType OMap.Satisfies
  cases t with
  | none => simp
  | some ts => cases s <;> simp

theorem addAll_spec (sub : γ → γ → Bool) {p : Pile ι γ δ} (h : Inv p) (xs : List (Arg ι γ δ)) :
    ∀ q, addAll sub p xs = .ok q →
      Inv q ∧ q.itemType = p.itemType ∧ q.strict = p.strict ∧ q.pname = p.pname ∧
      (abs q).map some = (abs p).map some ++ xs := by
  induction xs generalizing p with
  | nil => intro q hq; simp only [addAll, Except.ok.injEq] at hq; subst hq; simp [h]
  | cons a as ih =>
    intro q hq
    simp only [addAll] at hq
    have hs := step_refines sub h (.add a)
    split at hq
    · next p' heq =>
      have h1 : (step sub p (.add a)) = (p', .ok .unit) := by simp [step, heq, Except.map]
      rw [h1] at hs
      obtain ⟨hi, hr, hc1, hc2, hc3⟩ := hs
      have := ih hi q hq
      refine ⟨this.1, this.2.1.trans hc1, this.2.2.1.trans hc2, this.2.2.2.1.trans hc3, ?_⟩
      rw [this.2.2.2.2]
      have hcase : ∃ x, a = some x ∧ abs p' = abs p ++ [x] := by
        cases a with
        | none => simp [OMap.step] at hr
        | some x =>
          refine ⟨x, rfl, ?_⟩
          simp only [OMap.step] at hr
          split at hr
          · simp at hr
          · split at hr
            · simp at hr
            · simp at hr; exact hr
      obtain ⟨x, rfl, hx⟩ := hcase
      simp [hx]
    · cases hq

/-- Adding items that all satisfy the constraint and have fresh distinct ids succeeds. -/
theorem addAll_ok (sub : γ → γ → Bool) {p : Pile ι γ δ} (h : Inv p) (xs : List (Item ι γ δ))
    (hv : ∀ x ∈ xs, validType sub p.itemType p.strict x = true)
    (hn : (xs.map Item.id).Nodup) (hd : ∀ x ∈ xs, x.id ∉ p.items.keys) :
    ∃ q, addAll sub p (xs.map some) = .ok q := by
  induction xs generalizing p with
  | nil => exact ⟨p, rfl⟩
  | cons x xs ih =>
    simp only [List.map_cons, addAll]
    have h1 : p.items.has x.id = false := (Dict.has_eq_false_iff _ _).2 (hd x (by simp))
    have h2 : add sub p (some x) =
        ({ p with items := p.items.set x.id x, order := p.order ++ [x.id] }, .ok ()) := by
      simp [add, h1, hv x (by simp)]
    rw [h2]
    simp only [List.map_cons, List.nodup_cons] at hn
    apply ih (abs_add h x (hd x (by simp))).1
    · intro y hy; exact hv y (by simp [hy])
    · exact hn.2
    · intro y hy
      simp only [Dict.mem_keys_set, not_or]
      refine ⟨?_, hd y (by simp [hy])⟩
      intro he; exact hn.1 (List.mem_map.2 ⟨y, hy, he⟩)

/-- Adding a list with an id repeated (or already present) fails with `ExistsError`, provided the items
satisfy the constraint. -/
theorem addAll_dup (sub : γ → γ → Bool) {p : Pile ι γ δ} (h : Inv p) (xs : List (Item ι γ δ))
    (hv : ∀ x ∈ xs, validType sub p.itemType p.strict x = true)
    (hn : ¬ ((xs.map Item.id).Nodup ∧ ∀ x ∈ xs, x.id ∉ p.items.keys)) :
    addAll sub p (xs.map some) = .error .exists_ := by
  induction xs generalizing p with
  | nil => exact absurd ⟨List.nodup_nil, by simp⟩ hn
  | cons x xs ih =>
    simp only [List.map_cons, addAll]
    by_cases h1 : p.items.has x.id = true
    · simp [add, h1, hv x (by simp)]
    · simp only [Bool.not_eq_true] at h1
      have hx : x.id ∉ p.items.keys := (Dict.has_eq_false_iff _ _).1 h1
      have h2 : add sub p (some x) =
          ({ p with items := p.items.set x.id x, order := p.order ++ [x.id] }, .ok ()) := by
        simp [add, h1, hv x (by simp)]
      rw [h2]
      apply ih (abs_add h x hx).1
      · intro y hy; exact hv y (by simp [hy])
      · rintro ⟨ha, hb⟩
        apply hn
        constructor
        · simp only [List.map_cons, List.nodup_cons]
          refine ⟨?_, ha⟩
          intro hm
          obtain ⟨y, hy, he⟩ := List.mem_map.1 hm
          have := hb y hy
          simp only [Dict.mem_keys_set, not_or] at this
          exact this.1 he
        · intro y hy
          rcases List.mem_cons.1 hy with rfl | hy
          · exact hx
          · have := hb y hy
            simp only [Dict.mem_keys_set, not_or] at this
            exact this.2

theorem mem_abs {p : Pile ι γ δ} (h : Inv p) (x : Item ι γ δ) : x ∈ abs p ↔ p.items.get? x.id = some x := by
  unfold abs
  rw [List.mem_filterMap]
  constructor
  · rintro ⟨u, hu, hx⟩
    have := h.ids u x hx; subst this; exact hx
  · intro hx
    exact ⟨x.id, (h.mem_iff _).2 (Dict.mem_keys_of_get? hx), hx⟩

/-- The type constraint holds for everything stored. -/
def Typed (sub : γ → γ → Bool) (p : Pile ι γ δ) : Prop :=
  ∀ u x, p.items.get? u = some x → validType sub p.itemType p.strict x = true

/-- A query result built from items of the pile. -/
theorem derived_ok (sub : γ → γ → Bool) {p : Pile ι γ δ} (ht : Typed sub p)
    (xs : List (Item ι γ δ)) (hx : ∀ x ∈ xs, ∃ u, p.items.get? u = some x) (hn : (xs.map Item.id).Nodup) :
    ∃ q, derived sub p xs = .ok q ∧ Inv q ∧ abs q = xs ∧ q.itemType = p.itemType ∧ q.strict = p.strict := by
  have hi : Inv ({ itemType := p.itemType, strict := p.strict } : Pile ι γ δ) := inv_empty _ _ _
  obtain ⟨q, hq⟩ := addAll_ok sub hi xs
    (fun x hxm => by obtain ⟨u, hu⟩ := hx x hxm; exact ht u x hu) hn (by simp [Dict.keys])
  have hs := addAll_spec sub hi _ q hq
  refine ⟨q, by simp [derived, mk', hq], hs.1, ?_, hs.2.1, hs.2.2.1⟩
  have := hs.2.2.2.2
  simp only [abs, List.filterMap_nil, List.map_nil, List.nil_append] at this
  exact (List.map_inj_right (fun _ _ h => Option.some.inj h)).1 this

theorem derived_dup (sub : γ → γ → Bool) {p : Pile ι γ δ} (ht : Typed sub p)
    (xs : List (Item ι γ δ)) (hx : ∀ x ∈ xs, ∃ u, p.items.get? u = some x) (hn : ¬ (xs.map Item.id).Nodup) :
    derived sub p xs = .error .exists_ := by
  have hi : Inv ({ itemType := p.itemType, strict := p.strict } : Pile ι γ δ) := inv_empty _ _ _
  have := addAll_dup sub hi xs
    (fun x hxm => by obtain ⟨u, hu⟩ := hx x hxm; exact ht u x hu) (fun h => hn h.1)
  simp [derived, mk', this]

end Verif.Pile

namespace Verif

theorem Pile.remove_ok {ι γ δ : Type} [DecidableEq ι] [DecidableEq γ] {p : Pile ι γ δ} (h : Pile.Inv p) {u : ι}
    {x : Item ι γ δ} (hx : p.items.get? u = some x) :
    Pile.remove p (some u) = ({ p with items := p.items.del u, order := p.order.erase u }, .ok x) := by
  have hu : u ∈ p.order := (h.mem_iff u).2 (Dict.mem_keys_of_get? hx)
  simp [Pile.remove, hx, Progression.remove, hu]

theorem Pile.remove_absent {ι γ δ : Type} [DecidableEq ι] [DecidableEq γ] {p : Pile ι γ δ} {u : ι}
    (hx : p.items.get? u = none) : Pile.remove p (some u) = (p, .error .notFound) := by
  simp [Pile.remove, hx]

/-- `Pile.add` either raises without change or appends the new item. -/
theorem Pile.add_cases {ι γ δ : Type} [DecidableEq ι] [DecidableEq γ] (sub : γ → γ → Bool) (p : Pile ι γ δ)
    (a : Pile.Arg ι γ δ) :
    (∃ e, Pile.add sub p a = (p, .error e)) ∨
    (∃ x, a = some x ∧ x.id ∉ p.items.keys ∧
      Pile.add sub p a = ({ p with items := p.items.set x.id x, order := p.order ++ [x.id] }, .ok ())) := by
  cases a with
  | none => exact Or.inl ⟨_, rfl⟩
  | some x =>
    simp only [Pile.add]
    split
    · exact Or.inl ⟨_, rfl⟩
    · split
      · exact Or.inl ⟨_, rfl⟩
      · next h => exact Or.inr ⟨x, rfl, (Dict.has_eq_false_iff _ _).1 (Bool.eq_false_iff.2 h), rfl⟩

end Verif
