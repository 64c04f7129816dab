import Verif.Lemmas.Flow
import Verif.Props.Pile

/-!
# Properties C11–C14, C87: `Flow`
-/

set_option linter.unusedSectionVars false
set_option linter.unusedSimpArgs false

namespace Verif.Flow

variable {ι γ δ : Type} [DecidableEq ι] [DecidableEq γ]

/-- `f0` is a flow constructed with items `xs` (any type constraint) and progressions `ps`. -/
def Built (sub : γ → γ → Bool) (xs : List (Pile.Arg ι γ δ)) (t : Option (List γ)) (s : Bool)
    (ps : List (Prog ι)) (f0 : Flow ι γ δ) : Prop :=
  ∃ items, Pile.mk' sub xs t s none = .ok items ∧ mk' items ps = .ok f0

theorem Built.ok {sub : γ → γ → Bool} {xs : List (Pile.Arg ι γ δ)} {t : Option (List γ)} {s : Bool}
    {ps : List (Prog ι)} {f0 : Flow ι γ δ} (h : Built sub xs t s ps f0) :
    PInv f0 ∧ Pile.abs f0.progs = ps ∧ Integrity f0 := by
  obtain ⟨items, h1, h2⟩ := h
  have := mk'_ok (Pile.mk'_inv sub xs t s items h1).1 h2
  exact ⟨this.1, this.2.2.1, this.2.2.2.2⟩

theorem Built.good {sub : γ → γ → Bool} {xs : List (Pile.Arg ι γ δ)} {t : Option (List γ)} {s : Bool}
    {ps : List (Prog ι)} {f0 : Flow ι γ δ} (h : Built sub xs t s ps f0) (hd : DistinctNames ps) : Good f0 := by
  obtain ⟨items, h1, h2⟩ := h
  exact mk'_good (Pile.mk'_inv sub xs t s items h1).1 h2 hd

theorem PInv.run {f : Flow ι γ δ} (h : PInv f) (sub : γ → γ → Bool) (ops : List (Op ι γ δ)) : PInv (run sub f ops) := by
  induction ops generalizing f with
  | nil => exact h
  | cons op ops ih => exact ih (h.step sub op)

/-! ## C11 — referential integrity -/

/-- Every id listed by a progression the flow shows belongs to an item the flow shows. -/
def Referential (f : Flow ι γ δ) : Prop :=
  ∃ L I, Pile.iter f.progs = .ok L ∧ Pile.iter f.items = .ok I ∧
    ∀ p ∈ L, ∀ u ∈ p.data.order, ∃ x ∈ I, x.id = u

theorem referential_iff {f : Flow ι γ δ} (h : PInv f) : Referential f ↔ Integrity f := by
  have hI : ∀ u, (∃ x ∈ Pile.abs f.items, x.id = u) ↔ u ∈ f.items.items.keys := by
    intro u
    rw [← h.items.mem_iff, ← Pile.abs_ids h.items, List.mem_map]
  constructor
  · rintro ⟨L, I, hL, hI', H⟩
    rw [Pile.iter_eq h.progs] at hL; cases hL
    rw [Pile.iter_eq h.items] at hI'; cases hI'
    intro u p hp x hx
    have hid := h.progs.ids u p hp
    exact (hI x).1 (H p ((Pile.mem_abs h.progs p).2 (by rw [hid]; exact hp)) x hx)
  · intro H
    refine ⟨_, _, Pile.iter_eq h.progs, Pile.iter_eq h.items, ?_⟩
    intro p hp u hu
    exact (hI u).2 (H p.id p ((Pile.mem_abs h.progs p).1 hp) u hu)

/-- `remove_item(u)` is only called while no progression lists `u` more than once. -/
def SafeRemovals (sub : γ → γ → Bool) (f : Flow ι γ δ) : List (Op ι γ δ) → Prop
  | [] => True
  | op :: ops =>
    (∀ u, op = .removeItem (some u) → ∀ L, Pile.iter f.progs = .ok L → ∀ p ∈ L, p.data.order.count u ≤ 1) ∧
      SafeRemovals sub (step sub f op).1 ops

theorem Integrity.step {f : Flow ι γ δ} (h : PInv f) (hI : Integrity f) (sub : γ → γ → Bool) (op : Op ι γ δ)
    (hs : ∀ u, op = .removeItem (some u) → ∀ L, Pile.iter f.progs = .ok L → ∀ p ∈ L, p.data.order.count u ≤ 1) :
    Integrity (step sub f op).1 := by
  cases op with
  | addProgression p => exact Integrity.addProgression h hI p
  | removeProgression k => exact Integrity.removeProgression h hI k
  | addItem a ps => exact Integrity.addItem h hI sub a ps
  | removeItem r =>
    cases r with
    | none => exact hI
    | some uid =>
      refine Integrity.removeItem h hI uid ?_
      intro u p hp
      have hid := h.progs.ids u p hp
      exact hs uid rfl _ (Pile.iter_eq h.progs) p ((Pile.mem_abs h.progs p).2 (by rw [hid]; exact hp))

/-- **C11** (construction).  `Flow(items, progressions)` succeeds exactly if the progressions have different ids and list only ids of items; it then
holds these items and these progressions, in order.  A repeated progression id is an ExistsError, otherwise an unknown item id a
NotFoundError. -/
theorem C11_created (sub : γ → γ → Bool) (xs : List (Pile.Arg ι γ δ)) (t : Option (List γ)) (s : Bool) (items : Pile ι γ δ)
    (h : Pile.mk' sub xs t s none = .ok items) (ps : List (Prog ι)) :
    ((∃ f, mk' items ps = .ok f ∧ f.items = items ∧ Pile.iter f.progs = .ok ps) ↔
      (ps.map Item.id).Nodup ∧ ∀ p ∈ ps, ∀ u ∈ p.data.order, Pile.contains items (some u) = true) ∧
    (¬ (ps.map Item.id).Nodup → mk' items ps = .error .exists_) ∧
    ((ps.map Item.id).Nodup → (∃ p ∈ ps, ∃ u ∈ p.data.order, Pile.contains items (some u) = false) → mk' items ps = .error .notFound) := by
  have hi := (Pile.mk'_inv sub xs t s items h).1
  have hv : ∀ p ∈ ps, Pile.validType anySub none false p = true := fun _ _ => rfl
  have hmiss : ∀ order : List ι, missing items order = true ↔ ∃ u ∈ order, Pile.contains items (some u) = false := by
    intro order
    unfold missing
    rw [List.any_eq_true]
    have hk : ∀ u, (!decide (u ∈ items.keys)) = true ↔ Pile.contains items (some u) = false := by
      intro u
      simp only [Pile.contains, Pile.keys, Bool.not_eq_true', decide_eq_false_iff_not, Dict.has_eq_false_iff, hi.mem_iff]
    constructor
    · rintro ⟨u, hu, hm⟩; exact ⟨u, hu, (hk u).1 hm⟩
    · rintro ⟨u, hu, hm⟩; exact ⟨u, hu, (hk u).2 hm⟩
  have hdup : ¬ (ps.map Item.id).Nodup → mk' items ps = .error .exists_ := by
    intro hn
    unfold mk'
    rw [Pile.addAll_dup anySub (Pile.inv_empty none false none) ps hv (fun h => hn h.1)]
  have hok : (ps.map Item.id).Nodup → ∃ pp, Pile.addAll anySub {} (ps.map some) = .ok pp ∧ Pile.iter pp = .ok ps := by
    intro hn
    obtain ⟨pp, hpp⟩ := Pile.addAll_ok anySub (Pile.inv_empty none false none) ps hv hn (by intro x _ hx; cases hx)
    refine ⟨pp, hpp, ?_⟩
    have hs := Pile.addAll_spec anySub (Pile.inv_empty none false none) _ pp hpp
    have habs : Pile.abs pp = ps := by
      have := hs.2.2.2.2
      simp only [Pile.abs, List.filterMap_nil, List.map_nil, List.nil_append] at this
      exact (List.map_inj_right (fun _ _ h => Option.some.inj h)).1 this
    rw [Pile.iter_eq hs.1, habs]
  have hnf : (ps.map Item.id).Nodup → (∃ p ∈ ps, ∃ u ∈ p.data.order, Pile.contains items (some u) = false) → mk' items ps = .error .notFound := by
    rintro hn ⟨p, hp, hu⟩
    obtain ⟨pp, h1, h2⟩ := hok hn
    unfold mk'
    rw [h1]
    simp only [h2]
    rw [if_pos (List.any_eq_true.2 ⟨p, hp, (hmiss _).2 hu⟩)]
  refine ⟨⟨?_, ?_⟩, hdup, hnf⟩
  · rintro ⟨f, hf, _, _⟩
    have hn : (ps.map Item.id).Nodup := Classical.byContradiction fun hn => by rw [hdup hn] at hf; cases hf
    refine ⟨hn, ?_⟩
    intro p hp u hu
    cases hg : Pile.contains items (some u) with
    | true => rfl
    | false => rw [hnf hn ⟨p, hp, u, hu, hg⟩] at hf; cases hf
  · rintro ⟨hn, hm⟩
    obtain ⟨pp, h1, h2⟩ := hok hn
    unfold mk'
    rw [h1]
    simp only [h2]
    rw [if_neg]
    · exact ⟨_, rfl, rfl, h2⟩
    · intro ha
      obtain ⟨p, hp, hpm⟩ := List.any_eq_true.1 ha
      obtain ⟨u, hu, hg⟩ := (hmiss _).1 hpm
      rw [hm p hp u hu] at hg; cases hg

/-- **C11** (partial).  From any constructed flow, after any history in which `remove_item(u)` is only called while no
progression lists `u` twice, every id in every progression is the id of a stored item.  Missing: the unrestricted
statement is false, see `C11_duplicate_violation`. -/
theorem C11_integrity_partial (sub : γ → γ → Bool) (xs : List (Pile.Arg ι γ δ)) (t : Option (List γ)) (s : Bool)
    (ps : List (Prog ι)) (f0 : Flow ι γ δ) (h : Built sub xs t s ps f0) (ops : List (Op ι γ δ))
    (hs : SafeRemovals sub f0 ops) : Referential (run sub f0 ops) := by
  have h1 := h.ok.1
  have h3 := h.ok.2.2
  rw [referential_iff (h1.run sub ops)]
  clear h
  induction ops generalizing f0 with
  | nil => exact h3
  | cons op ops ih => exact ih _ hs.2 (h1.step sub op) (Integrity.step h1 h3 sub op hs.1)

/-- **C11**: histories that never call `remove_item` keep integrity without any side condition. -/
theorem C11_integrity_without_remove_item (sub : γ → γ → Bool) (xs : List (Pile.Arg ι γ δ)) (t : Option (List γ)) (s : Bool)
    (ps : List (Prog ι)) (f0 : Flow ι γ δ) (h : Built sub xs t s ps f0) (ops : List (Op ι γ δ))
    (hs : ∀ r, Op.removeItem r ∉ ops) : Referential (run sub f0 ops) := by
  refine C11_integrity_partial sub xs t s ps f0 h ops ?_
  clear h
  induction ops generalizing f0 with
  | nil => trivial
  | cons op ops ih =>
    refine ⟨?_, ih _ (fun r hr => hs r (List.mem_cons_of_mem _ hr))⟩
    rintro u rfl
    exact absurd List.mem_cons_self (hs (some u))

/-- Items used in the witnesses. -/
def i1 : Item Nat Unit Unit := ⟨1, (), ()⟩
@[inherit_doc i1] def i2 : Item Nat Unit Unit := ⟨2, (), ()⟩
/-- Progressions used in the witnesses (ids 10, 11). -/
def p10 (n : Option String) (o : List Nat) : Prog Nat := ⟨10, (), ⟨n, o⟩⟩
@[inherit_doc p10] def p11 (n : Option String) (o : List Nat) : Prog Nat := ⟨11, (), ⟨n, o⟩⟩
/-- The pile `[i1, i2]`. -/
def pile12 : Pile Nat Unit Unit :=
  { items := [(1, i1), (2, i2)], order := [1, 2], itemType := none, strict := false }

theorem pile12_eq : Pile.mk' (fun _ _ => true) [some i1, some i2] none false none = .ok pile12 := by rfl

/-- Flow built from `[i1, i2]` and one progression. -/
def flow1 (p : Prog Nat) : Flow Nat Unit Unit :=
  { items := pile12, progs := { items := [(p.id, p)], order := [p.id], itemType := none, strict := false },
    names := buildNames [p] }

theorem flow1_built (n : Option String) (o : List Nat) (h : ∀ u ∈ o, u = 1 ∨ u = 2) :
    Built (fun _ _ => true) [some i1, some i2] none false [p10 n o] (flow1 (p10 n o)) := by
  refine ⟨pile12, pile12_eq, ?_⟩
  have : missing pile12 o = false := by
    simp only [missing, List.any_eq_false]
    intro u hu
    rcases h u hu with rfl | rfl <;> decide
  have e : Pile.addAll anySub ({} : Pile Nat Unit (ProgData Nat)) ([p10 n o].map some) =
      .ok { items := [(10, p10 n o)], order := [10], itemType := none, strict := false } := rfl
  have e2 : Pile.iter ({ items := [(10, p10 n o)], order := [10], itemType := none, strict := false } : Pile Nat Unit (ProgData Nat))
      = .ok [p10 n o] := rfl
  simp only [mk', e, e2, List.any_cons, List.any_nil, Bool.or_false]
  have : missing pile12 (p10 n o).data.order = false := this
  simp only [this]
  rfl

/-- Non-vacuity of C11: a flow listing item 1 once, `add_item` into the progression, then `remove_item(1)`. -/
example : SafeRemovals (fun _ _ => true) (flow1 (p10 (some "a") [1, 2]))
    [.addItem (some ⟨3, (), ()⟩) [.key (.str ⟨"a", none⟩)], .removeItem (some 1)] := by
  refine ⟨fun u hu => (by cases hu), ?_, trivial⟩
  intro u hu L hL p hp
  injection hu with hu
  injection hu with hu
  subst hu
  have : L = [p10 (some "a") [1, 2, 3]] := by cases hL; rfl
  subst this
  simp only [List.mem_singleton] at hp
  subst hp
  decide

/-- **C11 fails in general**: a progression that lists item 1 twice keeps one reference after `remove_item(1)`. -/
theorem C11_duplicate_violation :
    Built (fun _ _ => true) [some i1, some i2] none false [p10 none [1, 2, 1]] (flow1 (p10 none [1, 2, 1])) ∧
      (step (fun _ _ => true) (flow1 (p10 none [1, 2, 1])) (.removeItem (some 1))).2.toOption.isSome = true ∧
      Pile.contains (run (fun _ _ => true) (flow1 (p10 none [1, 2, 1])) [.removeItem (some 1)]).items (some 1) = false ∧
      Pile.iter (run (fun _ _ => true) (flow1 (p10 none [1, 2, 1])) [.removeItem (some 1)]).progs = .ok [p10 none [2, 1]] ∧
      ¬ Referential (run (fun _ _ => true) (flow1 (p10 none [1, 2, 1])) [.removeItem (some 1)]) := by
  refine ⟨flow1_built _ _ (by decide), by decide, by decide, by decide, ?_⟩
  rintro ⟨L, I, hL, hI, H⟩
  cases hL; cases hI
  obtain ⟨x, hx, hx1⟩ := H (p10 none [2, 1]) (by decide) 1 (by decide)
  simp only [List.mem_cons, List.not_mem_nil, or_false] at hx
  rcases hx with rfl
  cases hx1

/-! ## C12 — names -/

/-- **C12**.  From any flow constructed with pairwise distinct names, after any history: looking up a non-empty
name returns the progression bearing it; no two progressions of the flow share a name; and when no progression bears the
string, a string that is not a UUID raises `KeyError`.  Not covered: construction does not reject duplicate names
(`C12_duplicate_names_limit`). -/
theorem C12_names (sub : γ → γ → Bool) (xs : List (Pile.Arg ι γ δ)) (t : Option (List γ)) (s : Bool)
    (ps : List (Prog ι)) (f0 : Flow ι γ δ) (h : Built sub xs t s ps f0) (hd : DistinctNames ps) (ops : List (Op ι γ δ)) :
    ∃ L, Pile.iter (run sub f0 ops).progs = .ok L ∧
      (∀ p ∈ L, ∀ n parsed, p.data.name = some n → n ≠ "" →
        getProgression (run sub f0 ops) (.str ⟨n, parsed⟩) = .ok p) ∧
      (∀ p ∈ L, ∀ q ∈ L, ∀ n, n ≠ "" → p.data.name = some n → q.data.name = some n → p = q) ∧
      (∀ n, (∀ p ∈ L, p.data.name ≠ some n) → getProgression (run sub f0 ops) (.str ⟨n, none⟩) = .error .keyError) ∧
      (∀ n u, (∀ p ∈ L, p.data.name ≠ some n) → (∀ p ∈ L, p.id ≠ u) →
        getProgression (run sub f0 ops) (.str ⟨n, some u⟩) = .error .notFound) := by
  have hg := (h.good hd).run sub ops
  generalize run sub f0 ops = f at hg ⊢
  have hmem : ∀ p, p ∈ Pile.abs f.progs ↔ f.progs.items.get? p.id = some p := Pile.mem_abs hg.piles.progs
  have habsent : ∀ n, (∀ p ∈ Pile.abs f.progs, p.data.name ≠ some n) → f.names.get? n = none := by
    intro n hn
    cases hc : f.names.get? n with
    | none => rfl
    | some u =>
      obtain ⟨p, hp, hpn⟩ := (hg.names n u).1 hc
      have hid := hg.piles.progs.ids u p hp
      exact absurd ((truthy_eq_some_iff _ _).1 hpn).1 (hn p ((hmem p).2 (by rw [hid]; exact hp)))
  refine ⟨Pile.abs f.progs, Pile.iter_eq hg.piles.progs, ?_, ?_, ?_, ?_⟩
  · intro p hp n r hn hne
    have hp' := (hmem p).1 hp
    have := (hg.names n p.id).2 ⟨p, hp', (truthy_eq_some_iff _ _).2 ⟨hn, hne⟩⟩
    simp [getProgression, this, hp']
  · intro p hp q hq n hne hpn hqn
    have h1 := (hg.names n p.id).2 ⟨p, (hmem p).1 hp, (truthy_eq_some_iff _ _).2 ⟨hpn, hne⟩⟩
    have h2 := (hg.names n q.id).2 ⟨q, (hmem q).1 hq, (truthy_eq_some_iff _ _).2 ⟨hqn, hne⟩⟩
    rw [h1] at h2
    have h3 := Option.some.inj h2
    have h4 := (hmem p).1 hp
    rw [h3, (hmem q).1 hq] at h4
    exact (Option.some.inj h4).symm
  · intro n hn
    simp [getProgression, habsent n hn]
  · intro n u hn hu
    have : f.progs.items.get? u = none := by
      cases hc : f.progs.items.get? u with
      | none => rfl
      | some p =>
        have hid := hg.piles.progs.ids u p hc
        exact absurd hid (hu p ((hmem p).2 (by rw [hid]; exact hc)))
    simp [getProgression, habsent n hn, this]

/-- **C12**: adding a progression whose name is already borne by one of the flow's progressions is rejected, leaving the
flow unchanged. -/
theorem C12_add_taken_name (sub : γ → γ → Bool) (xs : List (Pile.Arg ι γ δ)) (t : Option (List γ)) (s : Bool)
    (ps : List (Prog ι)) (f0 : Flow ι γ δ) (h : Built sub xs t s ps f0) (hd : DistinctNames ps) (ops : List (Op ι γ δ))
    (L : List (Prog ι)) (hL : Pile.iter (run sub f0 ops).progs = .ok L) (p q : Prog ι) (hq : q ∈ L) (n : String)
    (hne : n ≠ "") (hqn : q.data.name = some n) (hpn : p.data.name = some n) :
    addProgression (run sub f0 ops) p = (run sub f0 ops, .error .exists_) := by
  have hg := (h.good hd).run sub ops
  generalize run sub f0 ops = f at hg hL ⊢
  rw [Pile.iter_eq hg.piles.progs] at hL; cases hL
  have h1 := (hg.names n q.id).2 ⟨q, (Pile.mem_abs hg.piles.progs q).1 hq, (truthy_eq_some_iff _ _).2 ⟨hqn, hne⟩⟩
  have : nameTaken f.names p = true := by
    simp only [nameTaken, (truthy_eq_some_iff _ _).2 ⟨hpn, hne⟩]
    exact (Dict.has_iff _ _).2 (Dict.mem_keys_of_get? h1)
  simp [addProgression, this]

/-- Non-vacuity of C12. -/
example : Built (fun _ _ => true) [some i1, some i2] none false [p10 (some "a") [1]] (flow1 (p10 (some "a") [1])) ∧
    DistinctNames [p10 (some "a") [1]] ∧
    getProgression (run (fun _ _ => true) (flow1 (p10 (some "a") [1]))
      [.addProgression (p11 (some "b") [2]), .removeProgression (.ref (some 10)), .addProgression (p10 (some "a") [2])])
      (.str ⟨"a", none⟩) = .ok (p10 (some "a") [2]) :=
  ⟨flow1_built _ _ (by decide), (by unfold DistinctNames; decide), by decide⟩

/-- Outside the domain of C12: construction accepts two progressions with one name; `get_progression` then finds only the
second, and removing it by name makes the remaining bearer of the name unreachable. -/
theorem C12_duplicate_names_limit :
    ∃ f : Flow Nat Unit Unit,
      Built (fun _ _ => true) [some i1, some i2] none false [p10 (some "a") [1], p11 (some "a") [2]] f ∧
      Pile.iter f.progs = .ok [p10 (some "a") [1], p11 (some "a") [2]] ∧
      getProgression f (.str ⟨"a", none⟩) = .ok (p11 (some "a") [2]) ∧
      Pile.iter (run (fun _ _ => true) f [.removeProgression (.str ⟨"a", none⟩)]).progs = .ok [p10 (some "a") [1]] ∧
      getProgression (run (fun _ _ => true) f [.removeProgression (.str ⟨"a", none⟩)]) (.str ⟨"a", none⟩) =
        .error .keyError := by
  refine ⟨{ items := pile12,
            progs := { items := [(10, p10 (some "a") [1]), (11, p11 (some "a") [2])], order := [10, 11], itemType := none,
                       strict := false },
            names := [("a", 11)] }, ⟨pile12, pile12_eq, by rfl⟩, by decide, by decide, by decide, by decide⟩

/-! ## C13 — `remove_item` -/

/-- **C13**, exact effect: on a flow reachable from construction, `remove_item` of a stored item returns it, removes it
from the items, and erases the *first* occurrence of its id from every progression; everything else is unchanged. -/
theorem C13_remove_item_effect (sub : γ → γ → Bool) (xs : List (Pile.Arg ι γ δ)) (t : Option (List γ)) (s : Bool)
    (ps : List (Prog ι)) (f0 : Flow ι γ δ) (h : Built sub xs t s ps f0) (ops : List (Op ι γ δ))
    (L : List (Prog ι)) (I : List (Item ι γ δ)) (hL : Pile.iter (run sub f0 ops).progs = .ok L)
    (hI : Pile.iter (run sub f0 ops).items = .ok I) (x : Item ι γ δ) (hx : x ∈ I) :
    ∃ g, removeItem (run sub f0 ops) (some x.id) = (g, .ok x) ∧
      Pile.iter g.items = .ok (I.filter (fun y => decide (y.id ≠ x.id))) ∧
      Pile.iter g.progs = .ok (L.map (fun p => { p with data := { p.data with order := p.data.order.erase x.id } })) ∧
      g.names = (run sub f0 ops).names := by
  have hg := (h.ok.1).run sub ops
  generalize run sub f0 ops = f at hg hL hI ⊢
  rw [Pile.iter_eq hg.progs] at hL; cases hL
  rw [Pile.iter_eq hg.items] at hI; cases hI
  have hget := (Pile.mem_abs hg.items x).1 hx
  obtain ⟨qq, h1, h2, h3, h4⟩ := removeItem_eq hg x.id
  rw [Pile.remove_ok hg.items hget] at h4
  refine ⟨_, h4, ?_, ?_, rfl⟩
  · have := Pile.abs_del hg.items x.id
    rw [Pile.iter_eq this.1, this.2]
    congr 1
  · show Pile.iter qq = _
    rw [Pile.iter_eq h1]
    congr 1
    unfold Pile.abs
    rw [h2, List.map_filterMap]
    apply filterMap_congr'
    intro v hv
    rw [h3 v]
    congr 1
    funext p
    simp only [upd, dropFrom]
    split
    · rfl
    · next hn => rw [List.erase_of_not_mem hn]

/-- **C13** (partial): if no progression lists the id twice, `remove_item` removes every reference to it and keeps all
other entries in order.  Missing: with repeated ids one reference per extra copy survives
(`C13_duplicate_violation`). -/
theorem C13_remove_item_everywhere_partial (sub : γ → γ → Bool) (xs : List (Pile.Arg ι γ δ)) (t : Option (List γ))
    (s : Bool) (ps : List (Prog ι)) (f0 : Flow ι γ δ) (h : Built sub xs t s ps f0) (ops : List (Op ι γ δ))
    (L : List (Prog ι)) (I : List (Item ι γ δ)) (hL : Pile.iter (run sub f0 ops).progs = .ok L)
    (hI : Pile.iter (run sub f0 ops).items = .ok I) (x : Item ι γ δ) (hx : x ∈ I)
    (hc : ∀ p ∈ L, p.data.order.count x.id ≤ 1) :
    ∃ g, removeItem (run sub f0 ops) (some x.id) = (g, .ok x) ∧
      Pile.iter g.items = .ok (I.filter (fun y => decide (y.id ≠ x.id))) ∧
      Pile.iter g.progs = .ok (L.map (fun p =>
        { p with data := { p.data with order := p.data.order.filter (fun u => decide (u ≠ x.id)) } })) := by
  obtain ⟨g, h1, h2, h3, _⟩ := C13_remove_item_effect sub xs t s ps f0 h ops L I hL hI x hx
  refine ⟨g, h1, h2, ?_⟩
  rw [h3]
  congr 1
  apply List.map_congr_left
  intro p hp
  have := hc p hp
  have key : ∀ l : List ι, l.count x.id ≤ 1 → l.erase x.id = l.filter (fun u => decide (u ≠ x.id)) := by
    intro l
    induction l with
    | nil => intro _; rfl
    | cons a l ih =>
      intro hl
      by_cases e : a = x.id
      · rw [e] at hl ⊢
        simp only [List.count_cons_self] at hl
        have h0 : l.count x.id = 0 := by omega
        rw [List.erase_cons_head, List.filter_cons_of_neg (by simp)]
        symm
        rw [List.filter_eq_self]
        intro b hb
        simp only [ne_eq, decide_not, Bool.not_eq_eq_eq_not, Bool.not_true, decide_eq_false_iff_not]
        intro hbx
        exact (List.count_eq_zero.1 h0) (hbx ▸ hb)
      · rw [List.count_cons_of_ne e] at hl
        rw [List.erase_cons_tail (by simpa using e), List.filter_cons_of_pos (by simpa using e), ih hl]
  rw [key _ this]

/-- **C13**: removing an id that is not stored raises `NotFoundError`. -/
theorem C13_absent (sub : γ → γ → Bool) (xs : List (Pile.Arg ι γ δ)) (t : Option (List γ))
    (s : Bool) (ps : List (Prog ι)) (f0 : Flow ι γ δ) (h : Built sub xs t s ps f0) (ops : List (Op ι γ δ))
    (I : List (Item ι γ δ)) (hI : Pile.iter (run sub f0 ops).items = .ok I) (u : ι) (hu : ∀ x ∈ I, x.id ≠ u) :
    (removeItem (run sub f0 ops) (some u)).2 = .error .notFound := by
  have hg := (h.ok.1).run sub ops
  generalize run sub f0 ops = f at hg hI ⊢
  rw [Pile.iter_eq hg.items] at hI; cases hI
  have : f.items.items.get? u = none := by
    cases hc : f.items.items.get? u with
    | none => rfl
    | some p =>
      have hid := hg.items.ids u p hc
      exact absurd hid (hu p ((Pile.mem_abs hg.items p).2 (by rw [hid]; exact hc)))
  obtain ⟨qq, h1, h2, h3, h4⟩ := removeItem_eq hg u
  rw [h4, Pile.remove_absent this]

/-- **C13 fails in general**: with a repeated id one reference survives. -/
theorem C13_duplicate_violation :
    (removeItem (flow1 (p10 none [1, 2, 1])) (some 1)).2 = .ok i1 ∧
      Pile.iter (removeItem (flow1 (p10 none [1, 2, 1])) (some 1)).1.progs = .ok [p10 none [2, 1]] := by decide

/-- Non-vacuity of C13. -/
example : ∀ p ∈ [p10 (some "a") [1, 2]], p.data.order.count i1.id ≤ 1 := by decide

/-! ## C14 — atomicity -/

/-- **C14** (partial): `add_progression`, `remove_progression` and `remove_item` leave the flow unchanged when they raise,
on every flow reachable from a construction with distinct names by a history in which `remove_item` is safe (so that
integrity holds); `add_item` leaves it unchanged when the item itself is rejected.  Missing: `add_item` naming an unknown
progression (`C14_add_item_violation`). -/
theorem C14_atomic_partial (sub : γ → γ → Bool) (xs : List (Pile.Arg ι γ δ)) (t : Option (List γ)) (s : Bool)
    (ps : List (Prog ι)) (f0 : Flow ι γ δ) (h : Built sub xs t s ps f0) (hd : DistinctNames ps) (ops : List (Op ι γ δ))
    (hs : SafeRemovals sub f0 ops) (op : Op ι γ δ) (e : Exc)
    (hop : ∀ a as, op = .addItem a as → ∃ e', (Pile.add sub (run sub f0 ops).items a).2 = .error e')
    (herr : (step sub (run sub f0 ops) op).2 = .error e) : (step sub (run sub f0 ops) op).1 = run sub f0 ops := by
  have hg := (h.good hd).run sub ops
  have hI := (referential_iff hg.piles).1 (C11_integrity_partial sub xs t s ps f0 h ops hs)
  generalize run sub f0 ops = f at hg hI hop herr ⊢
  cases op with
  | addProgression p =>
    simp only [step] at herr ⊢
    rcases addProgression_cases f p with ⟨e', he⟩ | ⟨_, _, _, he⟩
    · rw [he]
    · rw [he] at herr; cases herr
  | removeProgression k =>
    have hid : ∀ r, (removeById f r).2 = .error e → (removeById f r).1 = f := by
      intro r hr
      cases r with
      | none => rfl
      | some u =>
        cases hp : f.progs.items.get? u with
        | none => simp [removeById, hp]
        | some p => simp only [removeById, hp, dropProgression_ok hg.piles hp] at hr; cases hr
    simp only [step] at herr ⊢
    have herr' : (removeProgression f k).2 = .error e := by
      cases hc : (removeProgression f k).2 with
      | ok v => rw [hc] at herr; cases herr
      | error e' => rw [hc] at herr; cases herr; rfl
    cases k with
    | ref r => exact hid r herr'
    | str k =>
      simp only [removeProgression] at herr' ⊢
      cases hn : f.names.get? k.str with
      | none => simp only [hn] at herr' ⊢; exact hid _ herr'
      | some u =>
        obtain ⟨p, hp, _⟩ := (hg.names _ _).1 hn
        simp only [hn, hp, dropProgression_ok hg.piles hp] at herr'
        cases herr'
  | addItem a as =>
    obtain ⟨e', he'⟩ := hop a as rfl
    simp only [step, addItem]
    rcases Pile.add_cases sub f.items a with ⟨e2, he⟩ | ⟨x, rfl, hk, he⟩
    · rw [he]
    · rw [he] at he'; cases he'
  | removeItem r =>
    cases r with
    | none => rfl
    | some u =>
      simp only [step] at herr ⊢
      obtain ⟨qq, h1, h2, h3, h4⟩ := removeItem_eq hg.piles u
      cases hx : f.items.items.get? u with
      | some x => rw [h4, Pile.remove_ok hg.piles.items hx] at herr; cases herr
      | none =>
        have hnk : u ∉ f.items.items.keys := (Dict.get?_eq_none_iff _ _).1 hx
        -- nothing to drop: every progression of the flow avoids `u`
        have hdrop : ∀ us (pp : Pile ι Unit (ProgData ι)), (∀ v p, pp.items.get? v = some p → u ∉ p.data.order) →
            pp.items.WF → (dropEverywhere pp u us).1 = pp := by
          intro us
          induction us with
          | nil => intro pp _ _; rfl
          | cons v us ih =>
            intro pp hpp hwf
            simp only [dropEverywhere]
            cases hv : pp.items.get? v with
            | none => rfl
            | some p =>
              have hm : modify pp v (dropFrom u) = pp := by
                simp only [modify, hv, dropFrom, hpp v p hv, if_false]
                have : pp.items.set v p = pp.items := by
                  apply Dict.ext_of_keys_get? (Dict.set_wf hwf _ _)
                  · exact Dict.keys_set_of_mem _ (Dict.mem_keys_of_get? hv)
                  · intro w
                    rw [Dict.get?_set]
                    split
                    · next e => rw [← e, hv]
                    · rfl
                rw [this]
              simp only [hm]
              exact ih pp hpp hwf
        have hd := hdrop f.progs.order f.progs (fun v p hv hu => hnk (hI v p hv u hu)) hg.piles.progs.wf
        obtain ⟨qq', h1', _⟩ := dropAll_spec hg.piles u
        rw [h1'] at hd
        simp only at hd
        subst hd
        simp only [removeItem, h1', Pile.remove_absent hx]

/-- Non-vacuity of C14: a safe history and a failing call in its final state. -/
example : (step (fun _ _ => true) (run (fun _ _ => true) (flow1 (p10 (some "a") [1, 2])) [.removeItem (some 1)])
    (.removeItem (some 1))).2.toOption.isNone = true := by decide

/-- **C14 fails for `add_item`**: naming an unknown progression raises `KeyError`, but the item stays added, and
progressions earlier in the list have already received it. -/
theorem C14_add_item_violation :
    (addItem (fun _ _ => true) (flow1 (p10 (some "a") [1])) (some ⟨3, (), ()⟩)
        [.key (.str ⟨"a", none⟩), .key (.str ⟨"zzz", none⟩)]).2 = .error .keyError ∧
      Pile.contains (addItem (fun _ _ => true) (flow1 (p10 (some "a") [1])) (some ⟨3, (), ()⟩)
        [.key (.str ⟨"a", none⟩), .key (.str ⟨"zzz", none⟩)]).1.items (some 3) = true ∧
      Pile.iter (addItem (fun _ _ => true) (flow1 (p10 (some "a") [1])) (some ⟨3, (), ()⟩)
        [.key (.str ⟨"a", none⟩), .key (.str ⟨"zzz", none⟩)]).1.progs = .ok [p10 (some "a") [1, 3]] := by decide

/-! ## C87 — `get_progression(instance)` -/

/-- **C87** (partial): by id or by (registered) name, `get_progression` returns the stored progression. -/
theorem C87_by_id_partial (sub : γ → γ → Bool) (xs : List (Pile.Arg ι γ δ)) (t : Option (List γ)) (s : Bool)
    (ps : List (Prog ι)) (f0 : Flow ι γ δ) (h : Built sub xs t s ps f0) (ops : List (Op ι γ δ)) (L : List (Prog ι))
    (hL : Pile.iter (run sub f0 ops).progs = .ok L) (p : Prog ι) (hp : p ∈ L) :
    getProgression (run sub f0 ops) (.ref (some p.id)) = .ok p := by
  have hg := (h.ok.1).run sub ops
  generalize run sub f0 ops = f at hg hL ⊢
  rw [Pile.iter_eq hg.progs] at hL; cases hL
  simp [getProgression, (Pile.mem_abs hg.progs p).1 hp]

/-- **C87 fails for instances**: passing the stored progression object itself raises `NotFoundError` when it lists any
item, and returns an empty pile — not the progression — when it is empty. -/
theorem C87_instance_violation :
    Pile.iter (flow1 (p10 (some "a") [1])).progs = .ok [p10 (some "a") [1]] ∧
    (getProgressionInstance (flow1 (p10 (some "a") [1])) (p10 (some "a") [1])).toOption.isNone = true ∧
    ((getProgressionInstance (flow1 (p10 (some "a") [])) (p10 (some "a") [])).toOption.map Pile.len) = some 0 := by
  decide

end Verif.Flow
