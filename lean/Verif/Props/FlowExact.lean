import Verif.Props.Flow

/-!
# Properties C11, C13, C14: exactly when they hold
-/

set_option linter.unusedSectionVars false
set_option linter.unusedSimpArgs false
set_option linter.unusedVariables false

namespace Verif.Flow

variable {ι γ δ : Type} [DecidableEq ι] [DecidableEq γ]

/-- One call on an intact flow. -/
theorem integrity_step_iff {f : Flow ι γ δ} (hg : PInv f) (hR : Integrity f) (sub : γ → γ → Bool) (op : Op ι γ δ) :
    Integrity (step sub f op).1 ↔ ∀ u, op = .removeItem (some u) → ∀ p ∈ Pile.abs f.progs, p.data.order.count u ≤ 1 := by
  constructor
  · rintro hI u rfl p hp
    have hget := (Pile.mem_abs hg.progs p).1 hp
    obtain ⟨qq, h1, h2, h3, h4⟩ := removeItem_eq hg u
    have e : (step sub f (.removeItem (some u))).1 = { f with progs := qq, items := (Pile.remove f.items (some u)).1 } := by
      simp only [step, h4]
    rw [e] at hI
    apply Classical.byContradiction
    intro hc
    have hmem : u ∈ p.data.order.erase u := by
      rw [← List.count_pos_iff, List.count_erase_self]
      omega
    have hq : qq.items.get? p.id = some (upd (dropFrom u) p) := by rw [h3, hget]; rfl
    have hu : u ∈ (Pile.remove f.items (some u)).1.items.keys := by
      refine hI p.id _ hq u ?_
      show u ∈ dropFrom u p.data.order
      rw [dropFrom, if_pos (List.mem_of_mem_erase hmem)]
      exact hmem
    cases hx : f.items.items.get? u with
    | none =>
      rw [Pile.remove_absent hx] at hu
      exact (Dict.get?_eq_none_iff _ _).1 hx hu
    | some x =>
      rw [Pile.remove_ok hg.items hx] at hu
      replace hu : u ∈ (f.items.items.del u).keys := hu
      rw [Dict.mem_keys_del hg.items.wf] at hu
      exact hu.1 rfl
  · intro hs
    refine Integrity.step hg hR sub op ?_
    intro u hu L' hL' p hp
    rw [Pile.iter_eq hg.progs] at hL'
    cases hL'
    exact hs u hu p hp

/-- **C11** (exact).  A call keeps referential integrity exactly if it is not a `remove_item(u)` while some progression lists `u` twice.
Missing: see `C11_duplicate_violation`. -/
theorem C11_exact_partial (sub : γ → γ → Bool) (xs : List (Pile.Arg ι γ δ)) (t : Option (List γ)) (s : Bool)
    (ps : List (Prog ι)) (f0 : Flow ι γ δ) (h : Built sub xs t s ps f0) (ops : List (Op ι γ δ)) (hR : Referential (run sub f0 ops))
    (L : List (Prog ι)) (hL : Pile.iter (run sub f0 ops).progs = .ok L) (op : Op ι γ δ) :
    Referential (step sub (run sub f0 ops) op).1 ↔ ∀ u, op = .removeItem (some u) → ∀ p ∈ L, p.data.order.count u ≤ 1 := by
  have hg := (h.ok.1).run sub ops
  generalize run sub f0 ops = f at hg hR hL ⊢
  rw [referential_iff hg] at hR
  rw [referential_iff (hg.step sub op)]
  rw [Pile.iter_eq hg.progs] at hL
  cases hL
  exact integrity_step_iff hg hR sub op

/-- **C13** (exact).  `remove_item(x)` removes `x` from every progression exactly if none lists it twice.  Missing: see
`C13_duplicate_violation`. -/
theorem C13_exact_partial (sub : γ → γ → Bool) (xs : List (Pile.Arg ι γ δ)) (t : Option (List γ)) (s : Bool)
    (ps : List (Prog ι)) (f0 : Flow ι γ δ) (h : Built sub xs t s ps f0) (ops : List (Op ι γ δ))
    (L : List (Prog ι)) (I : List (Item ι γ δ)) (hL : Pile.iter (run sub f0 ops).progs = .ok L)
    (hI : Pile.iter (run sub f0 ops).items = .ok I) (x : Item ι γ δ) (hx : x ∈ I) :
    (∃ g L', removeItem (run sub f0 ops) (some x.id) = (g, .ok x) ∧ Pile.iter g.progs = .ok L' ∧ ∀ p ∈ L', x.id ∉ p.data.order) ↔
      ∀ p ∈ L, p.data.order.count x.id ≤ 1 := by
  obtain ⟨g, h1, _, h3, _⟩ := C13_remove_item_effect sub xs t s ps f0 h ops L I hL hI x hx
  constructor
  · rintro ⟨g', L', e, hL', hm⟩ p hp
    rw [h1] at e
    cases e
    rw [h3] at hL'
    cases hL'
    have := hm _ (List.mem_map.2 ⟨p, hp, rfl⟩)
    replace this : x.id ∉ p.data.order.erase x.id := this
    rw [← List.count_pos_iff, List.count_erase_self] at this
    omega
  · intro hc
    refine ⟨g, _, h1, h3, ?_⟩
    intro q hq
    obtain ⟨p, hp, rfl⟩ := List.mem_map.1 hq
    show x.id ∉ p.data.order.erase x.id
    have := hc p hp
    rw [← List.count_pos_iff, List.count_erase_self]
    omega

/-- The append loop stops at the first progression that is not found; those before it have got the item. -/
theorem appendAll_stops (x : ι) (as : List (ProgArg ι)) : ∀ (f : Flow ι γ δ) (e : Exc), (appendAll f x as).2 = .error e →
    ∃ as1 k as2, as = as1 ++ .key k :: as2 ∧ (appendAll f x as1).2 = .ok () ∧ getProgression (appendAll f x as1).1 k = .error e ∧
      (appendAll f x as).1 = (appendAll f x as1).1 := by
  induction as with
  | nil => intro f e h; cases h
  | cons a as ih =>
    intro f e h
    cases a with
    | foreign =>
      obtain ⟨as1, k, as2, e1, e2, e3, e4⟩ := ih f e h
      exact ⟨.foreign :: as1, k, as2, by rw [e1]; rfl, e2, e3, e4⟩
    | member u =>
      obtain ⟨as1, k, as2, e1, e2, e3, e4⟩ := ih _ e h
      exact ⟨.member u :: as1, k, as2, by rw [e1]; rfl, e2, e3, e4⟩
    | key k =>
      cases hk : getProgression f k with
      | error e' =>
        simp only [appendAll, hk] at h ⊢
        cases h
        exact ⟨[], k, as, rfl, rfl, hk, rfl⟩
      | ok p =>
        simp only [appendAll, hk] at h
        obtain ⟨as1, k', as2, e1, e2, e3, e4⟩ := ih _ e h
        refine ⟨.key k :: as1, k', as2, by rw [e1]; rfl, ?_, ?_, ?_⟩ <;> simp only [appendAll, hk] <;> assumption

/-- **C14** (exact).  A call that raises leaves the flow unchanged exactly if it is not an `add_item` whose item was accepted. -/
theorem C14_exact_partial (sub : γ → γ → Bool) (xs : List (Pile.Arg ι γ δ)) (t : Option (List γ)) (s : Bool)
    (ps : List (Prog ι)) (f0 : Flow ι γ δ) (h : Built sub xs t s ps f0) (hd : DistinctNames ps) (ops : List (Op ι γ δ))
    (hs : SafeRemovals sub f0 ops) (op : Op ι γ δ) (e : Exc) (herr : (step sub (run sub f0 ops) op).2 = .error e) :
    (step sub (run sub f0 ops) op).1 = run sub f0 ops ↔
      ∀ a as, op = .addItem a as → ∃ e', (Pile.add sub (run sub f0 ops).items a).2 = .error e' := by
  refine ⟨?_, fun hop => C14_atomic_partial sub xs t s ps f0 h hd ops hs op e hop herr⟩
  rintro heq a as rfl
  have hg := (h.ok.1).run sub ops
  generalize run sub f0 ops = f at hg heq herr ⊢
  rcases Pile.add_cases sub f.items a with ⟨e', he⟩ | ⟨x, rfl, hk, he⟩
  · exact ⟨e', by rw [he]⟩
  · exfalso
    obtain ⟨hi, _⟩ := appendAll_spec x.id as { f with items := (Pile.add sub f.items (some x)).1 }
      ⟨by rw [he]; exact (Pile.abs_add hg.items x hk).1, hg.progs⟩
    have e1 : (step sub f (.addItem (some x) as)).1.items = (Pile.add sub f.items (some x)).1 := by
      simp only [step, addItem]
      rw [he] at hi ⊢
      exact hi
    rw [heq, he] at e1
    apply hk
    have : x.id ∈ (f.items.items.set x.id x).keys := by
      rw [← Dict.get?_isSome_iff, Dict.get?_set]; simp
    rw [e1]
    exact this

/-- **C14** (what is left).  When `add_item(x, progs)` raises although the item was accepted, the flow holds the item as its last one, and `x` has
been appended to the progressions named before the first one that is not found, as if only these had been named. -/
theorem C14_left_partial (sub : γ → γ → Bool) (xs : List (Pile.Arg ι γ δ)) (t : Option (List γ)) (s : Bool)
    (ps : List (Prog ι)) (f0 : Flow ι γ δ) (h : Built sub xs t s ps f0) (ops : List (Op ι γ δ)) (x : Item ι γ δ) (as : List (ProgArg ι)) (e : Exc)
    (hok : (Pile.add sub (run sub f0 ops).items (some x)).2 = .ok ()) (herr : (addItem sub (run sub f0 ops) (some x) as).2 = .error e)
    (I : List (Item ι γ δ)) (hI : Pile.iter (run sub f0 ops).items = .ok I) :
    ∃ as1 k as2, as = as1 ++ .key k :: as2 ∧ (addItem sub (run sub f0 ops) (some x) as1).2 = .ok () ∧
      (addItem sub (run sub f0 ops) (some x) as).1 = (addItem sub (run sub f0 ops) (some x) as1).1 ∧
      getProgression (addItem sub (run sub f0 ops) (some x) as1).1 k = .error e ∧
      Pile.iter (addItem sub (run sub f0 ops) (some x) as).1.items = .ok (I ++ [x]) := by
  have hg := (h.ok.1).run sub ops
  generalize run sub f0 ops = f at hg hok herr hI ⊢
  rcases Pile.add_cases sub f.items (some x) with ⟨e', he⟩ | ⟨x', hx', hk, he⟩
  · rw [he] at hok; cases hok
  · cases hx'
    have hadd : ∀ as, addItem sub f (some x) as = appendAll { f with items := (Pile.add sub f.items (some x)).1 } x.id as := by
      intro as
      simp only [addItem]
      rw [he]
    rw [hadd] at herr
    obtain ⟨as1, k, as2, e1, e2, e3, e4⟩ := appendAll_stops x.id as _ e herr
    refine ⟨as1, k, as2, e1, by rw [hadd]; exact e2, by rw [hadd, hadd]; exact e4, by rw [hadd]; exact e3, ?_⟩
    obtain ⟨hi, _⟩ := appendAll_spec x.id as { f with items := (Pile.add sub f.items (some x)).1 }
      ⟨by rw [he]; exact (Pile.abs_add hg.items x hk).1, hg.progs⟩
    rw [hadd, hi]
    rw [Pile.iter_eq hg.items] at hI
    cases hI
    show Pile.iter (Pile.add sub f.items (some x)).1 = _
    rw [he, Pile.iter_eq (Pile.abs_add hg.items x hk).1, (Pile.abs_add hg.items x hk).2]

example : (addItem (fun _ _ => true) (flow1 (p10 (some "a") [1])) (some ⟨3, (), ()⟩)
    [.key (.str ⟨"a", none⟩), .key (.str ⟨"zzz", none⟩)]).2 = .error .keyError ∧
    (Pile.add (fun _ _ => true) (flow1 (p10 (some "a") [1])).items (some ⟨3, (), ()⟩)).2 = .ok () := by decide

/-! ### C87 -/

/-- C87 by name: if the names were distinct at the start, every named progression is found under its name. -/
theorem C87_by_name_partial (sub : γ → γ → Bool) (xs : List (Pile.Arg ι γ δ)) (t : Option (List γ)) (s : Bool)
    (ps : List (Prog ι)) (f0 : Flow ι γ δ) (h : Built sub xs t s ps f0) (hd : DistinctNames ps) (ops : List (Op ι γ δ)) (L : List (Prog ι))
    (hL : Pile.iter (run sub f0 ops).progs = .ok L) (p : Prog ι) (hp : p ∈ L) (n : String) (hn : p.data.name = some n) (hne : n ≠ "")
    (parsed : Option ι) : getProgression (run sub f0 ops) (.str ⟨n, parsed⟩) = .ok p := by
  rcases C12_names sub xs t s ps f0 h hd ops with ⟨L', hL', h1, _⟩
  rw [hL] at hL'
  cases hL'
  exact h1 p hp n parsed hn hne

theorem addAll_ne_notFound {γ δ : Type} [DecidableEq γ] (sub : γ → γ → Bool) : ∀ (as : List (Pile.Arg ι γ δ)) (p : Pile ι γ δ), Pile.addAll sub p as ≠ .error .notFound
  | [], p => by simp [Pile.addAll]
  | a :: as, p => by
    intro h
    simp only [Pile.addAll] at h
    cases a with
    | none => simp [Pile.add] at h
    | some x =>
      simp only [Pile.add] at h
      by_cases h1 : Pile.validType sub p.itemType p.strict x = false
      · simp [h1] at h
      · by_cases h2 : p.items.has x.id = true
        · simp [h1, h2] at h
        · rw [if_neg h1, if_neg h2] at h
          exact addAll_ne_notFound sub as _ h

/-- C87 for the object itself, exactly: `NotFoundError` iff the progression lists an id that is not the id of a progression of the flow. What is
returned otherwise is a pile. -/
theorem C87_instance_exact_partial (sub : γ → γ → Bool) (xs : List (Pile.Arg ι γ δ)) (t : Option (List γ)) (s : Bool)
    (ps : List (Prog ι)) (f0 : Flow ι γ δ) (h : Built sub xs t s ps f0) (ops : List (Op ι γ δ)) (L : List (Prog ι))
    (hL : Pile.iter (run sub f0 ops).progs = .ok L) (p : Prog ι) :
    getProgressionInstance (run sub f0 ops) p = .error .notFound ↔ ∃ u ∈ p.data.order, u ∉ L.map (·.id) := by
  have hg := (h.ok.1).run sub ops
  generalize run sub f0 ops = f at hg hL ⊢
  rw [Pile.iter_eq hg.progs] at hL
  cases hL
  have hmem : ∀ u, u ∈ (Pile.abs f.progs).map (·.id) ↔ f.progs.items.has u = true := by
    intro u
    rw [Dict.has_iff, ← Dict.get?_isSome_iff, Option.isSome_iff_exists, List.mem_map]
    constructor
    · rintro ⟨q, hq, rfl⟩
      have := (Pile.mem_abs hg.progs q).1 hq
      exact ⟨q, this⟩
    · rintro ⟨q, hq⟩
      have := hg.progs.ids u q hq
      subst this
      exact ⟨q, (Pile.mem_abs hg.progs q).2 hq, rfl⟩
  simp only [getProgressionInstance, Pile.filterByProgression]
  constructor
  · intro he
    by_cases ha : (p.data.order.any (fun u => !f.progs.items.has u)) = true
    · rcases List.any_eq_true.1 ha with ⟨u, hu, hn⟩
      refine ⟨u, hu, fun hm => ?_⟩
      rw [(hmem u).1 hm] at hn
      cases hn
    · exfalso
      rw [if_neg ha] at he
      have hall : ∀ u ∈ p.data.order, f.progs.items.has u = true := by
        intro u hu
        cases hx : f.progs.items.has u with
        | true => rfl
        | false => exact absurd (List.any_eq_true.2 ⟨u, hu, by simp [hx]⟩) ha
      rw [Pile.lookupAll_eq (fun u hu => (Dict.has_iff _ _).1 (hall u hu))] at he
      simp only [Pile.derived, Pile.mk'] at he
      split at he
      · rename_i e hm
        cases he
        exact addAll_ne_notFound _ _ _ hm
      · cases he
  · rintro ⟨u, hu, hn⟩
    rw [if_pos]
    refine List.any_eq_true.2 ⟨u, hu, ?_⟩
    cases hx : f.progs.items.has u with
    | true => exact absurd ((hmem u).2 hx) hn
    | false => rfl

end Verif.Flow
