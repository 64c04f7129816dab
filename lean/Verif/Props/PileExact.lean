import Verif.Props.Pile

/-!
# Exact rules for `Pile`: explicit orders, failing list keys, loading (C08, C09, C226)
-/

set_option linter.unusedSectionVars false
set_option linter.unusedSimpArgs false
set_option linter.unusedVariables false

namespace Verif.Pile

variable {ι γ δ : Type} [DecidableEq ι] [DecidableEq γ]

/-! ## C08: piles with an explicit order -/

/-- C08, exact: a non-empty explicit order is accepted exactly when the items alone form a pile and every id of the
order is the id of an item; otherwise the exception is that of the items, or `NotFoundError`. -/
theorem C08_accepted_partial (sub : γ → γ → Bool) (xs : List (Item ι γ δ)) (t : Option (List γ)) (s : Bool)
    (o : List ι) (ho : o ≠ []) :
    (∀ e, mk' sub (xs.map some) t s none = .error e → mk' sub (xs.map some) t s (some o) = .error e) ∧
    (∀ q, mk' sub (xs.map some) t s none = .ok q →
      ((∀ u ∈ o, u ∈ xs.map Item.id) → mk' sub (xs.map some) t s (some o) = .ok { q with order := o }) ∧
      ((∃ u ∈ o, u ∉ xs.map Item.id) → mk' sub (xs.map some) t s (some o) = .error .notFound)) := by
  cases o with
  | nil => exact absurd rfl ho
  | cons a o =>
    constructor
    · intro e he
      unfold mk' at he ⊢
      split at he
      · cases he; rfl
      · cases he
    · intro q hq
      obtain ⟨hi, ha, ht, hs, hp⟩ := mk'_inv sub _ t s q hq
      have hx : abs q = xs := (List.map_inj_right (fun _ _ h => Option.some.inj h)).1 ha
      have hqa : addAll sub { itemType := t, strict := s } (xs.map some) = .ok q := by
        unfold mk' at hq
        split at hq
        · cases hq
        · next q' hq' => cases hq; exact hq'
      have hk : ∀ u, q.items.has u = true ↔ u ∈ xs.map Item.id := by
        intro u
        rw [Dict.has_iff, ← hi.mem_iff, ← abs_ids hi, hx]
      constructor
      · intro h
        have hall : (a :: o).all (fun u => q.items.has u) = true := by
          rw [List.all_eq_true]; intro u hu; exact (hk u).2 (h u hu)
        simp only [mk', hqa, hall, if_true]
        congr 1
        cases q; simp only at hp; subst hp; rfl
      · rintro ⟨u, hu, hn⟩
        have hall : (a :: o).all (fun u => q.items.has u) = false := by
          rw [List.all_eq_false]; exact ⟨u, hu, fun h => hn ((hk u).1 h)⟩
        simp only [mk', hqa, hall]; rfl

/-- C08, exact: an accepted explicit order gives a pile that iterates over each of its items once, in that order,
and has their number as length, exactly when the order lists every item exactly once.  Missing from the full claim:
rejection of the other orders (`C08_subset_violation`, `C08_duplicate_violation`). -/
theorem C08_consistent_iff_partial (sub : γ → γ → Bool) (xs : List (Item ι γ δ)) (t : Option (List γ)) (s : Bool)
    (o : List ι) (ho : o ≠ []) (p : Pile ι γ δ) (hp : mk' sub (xs.map some) t s (some o) = .ok p) :
    keys p = o ∧ len p = xs.length ∧
    (∃ l, iter p = .ok l ∧ l.map Item.id = o ∧ ∀ x ∈ l, x ∈ xs) ∧
    ((∃ l, iter p = .ok l ∧ l.Perm xs) ↔ o.Perm (xs.map Item.id)) := by
  obtain ⟨h1, h2⟩ := C08_accepted_partial sub xs t s o ho
  cases hm : mk' sub (xs.map some) t s none with
  | error e => rw [h1 e hm] at hp; cases hp
  | ok q =>
    obtain ⟨ha, hb⟩ := h2 q hm
    have hall : ∀ u ∈ o, u ∈ xs.map Item.id := by
      intro u hu
      apply Classical.byContradiction
      intro hn
      rw [hb ⟨u, hu, hn⟩] at hp; cases hp
    rw [ha hall] at hp
    cases hp
    obtain ⟨hi, haq, ht, hs, hpn⟩ := mk'_inv sub _ t s q hm
    have hx : abs q = xs := (List.map_inj_right (fun _ _ h => Option.some.inj h)).1 haq
    have hkeys : ∀ u ∈ o, u ∈ q.items.keys := by
      intro u hu
      rw [← hi.mem_iff, ← abs_ids hi, hx]; exact hall u hu
    have hl : iter { q with order := o } = .ok (o.filterMap q.items.get?) := lookupAll_eq hkeys
    have hid : (o.filterMap q.items.get?).map Item.id = o :=
      filterMap_ids hi.ids (fun u hu => (Dict.has_iff _ _).2 (hkeys u hu))
    refine ⟨rfl, ?_, ⟨_, hl, hid, ?_⟩, ?_⟩
    · show q.items.length = _
      rw [← abs_length hi, hx]
    · intro x hxm
      obtain ⟨u, -, hu⟩ := List.mem_filterMap.1 hxm
      have := hi.ids u x hu; subst this
      rw [← hx]; exact (mem_abs hi x).2 hu
    · rw [hl]
      constructor
      · rintro ⟨l, hl', hpm⟩
        cases hl'
        have := hpm.map Item.id
        rw [hid] at this; exact this
      · intro hpm
        refine ⟨_, rfl, ?_⟩
        rw [← hx, abs]
        apply List.Perm.filterMap
        have : q.order = xs.map Item.id := by rw [← abs_ids hi, hx]
        rw [this]; exact hpm

theorem length_del (d : Dict ι (Item ι γ δ)) (u : ι) (h : u ∈ d.keys) : (d.del u).length + 1 = d.length := by
  have h1 : ∀ e : Dict ι (Item ι γ δ), e.length = e.keys.length := fun e => by simp [Dict.keys]
  rw [h1, h1, Dict.keys_del, List.length_erase_of_mem h]
  have := List.length_pos_of_mem h
  omega

/-- C08: what taking a stored item out does in any pile, whatever order it was given: the item is gone afterwards in
every case.  If the order lists it, its first listing goes too and the item is returned (`exclude`: `True`).  If not,
the order stays and the call raises `ValueError` (`exclude`: `False`, though the item is not there any more). -/
theorem C08_taken_out (p : Pile ι γ δ) (hwf : p.items.WF) (u : ι) (x : Item ι γ δ) (d : Bool)
    (hx : get p (some u) false = .ok (some x)) :
    (u ∈ keys p →
      (remove p (some u)).2 = .ok x ∧ (pop p (some u) d).2 = .ok (some x) ∧ (exclude p (some u)).2 = .ok true ∧
      ∀ q ∈ [(remove p (some u)).1, (pop p (some u) d).1, (exclude p (some u)).1],
        keys q = (keys p).erase u ∧ contains q (some u) = false ∧ len q + 1 = len p ∧
        ∀ v, v ≠ u → get q (some v) false = get p (some v) false) ∧
    (u ∉ keys p →
      (remove p (some u)).2 = .error .valueError ∧ (pop p (some u) d).2 = .error .valueError ∧
      (exclude p (some u)).2 = .ok false ∧
      ∀ q ∈ [(remove p (some u)).1, (pop p (some u) d).1, (exclude p (some u)).1],
        keys q = keys p ∧ contains q (some u) = false ∧ len q + 1 = len p ∧
        ∀ v, v ≠ u → get q (some v) false = get p (some v) false) := by
  have hg : p.items.get? u = some x := by
    simp only [get] at hx
    split at hx
    · cases hx; assumption
    · cases hx
  have hhas : p.items.has u = true := by rw [Dict.has_iff]; exact Dict.mem_keys_of_get? hg
  have hdel : ∀ o, contains ({ p with items := p.items.del u, order := o } : Pile ι γ δ) (some u) = false := by
    intro o
    show (p.items.del u).has u = false
    rw [Dict.has_eq_false_iff, ← Dict.get?_eq_none_iff, Dict.get?_del hwf]; simp
  have hlen : ∀ o, len ({ p with items := p.items.del u, order := o } : Pile ι γ δ) + 1 = len p := by
    intro o
    show (p.items.del u).length + 1 = p.items.length
    exact length_del _ _ (Dict.mem_keys_of_get? hg)
  have hoth : ∀ o v, v ≠ u → get ({ p with items := p.items.del u, order := o } : Pile ι γ δ) (some v) false =
      get p (some v) false := by
    intro o v hv
    have : (p.items.del u).get? v = p.items.get? v := by rw [Dict.get?_del hwf, if_neg (Ne.symm hv)]
    simp only [get, this]
  constructor
  · intro hu
    have hu' : u ∈ p.order := hu
    simp only [exclude, pop, remove, hg, hhas, Progression.remove, hu', if_true]
    refine ⟨trivial, trivial, trivial, ?_⟩
    intro q hq
    simp only [List.mem_cons, List.not_mem_nil, or_false, or_self] at hq
    subst hq
    exact ⟨rfl, hdel _, hlen _, hoth _⟩
  · intro hu
    have hu' : ¬ u ∈ p.order := hu
    simp only [exclude, pop, remove, hg, hhas, Progression.remove, hu', if_true, if_false]
    refine ⟨trivial, trivial, trivial, ?_⟩
    intro q hq
    simp only [List.mem_cons, List.not_mem_nil, or_false, or_self] at hq
    subst hq
    exact ⟨rfl, hdel _, hlen _, hoth _⟩

/-- Non-vacuity for `C08_taken_out`: both cases occur in a pile built through the API. -/
example : ∃ p, mk' (fun _ _ => true) [some w1, some w2] none false (some [1, 1]) = .ok p ∧ p.items.WF ∧
    get p (some 1) false = .ok (some w1) ∧ 1 ∈ keys p ∧ get p (some 2) false = .ok (some w2) ∧ 2 ∉ keys p :=
  ⟨{ items := [(1, w1), (2, w2)], order := [1, 1] }, by decide, show List.Nodup [1, 2] by decide, by decide, by decide, by decide, by decide⟩

/-! ## C09: list keys that do not all resolve -/

/-- The exception of looking up a reference that names no item: `ValueError` for a malformed one, `NotFoundError`
for an id that is not stored. -/
def missing : Ref ι → Exc
  | none => .valueError
  | some _ => .notFound

/-- C09 (list of ids): the first reference that names no stored item decides the exception, whatever follows. -/
theorem C09_id_list_missing (sub : γ → γ → Bool) (p : Pile ι γ δ) (rs ss : List (Ref ι)) (r : Ref ι)
    (hrs : ∀ r ∈ rs, contains p r = true) (hr : contains p r = false) :
    getByList sub p ((rs ++ r :: ss).map Key.id) = .error (missing r) := by
  have hall : ((rs ++ r :: ss).map (Key.id (ι := ι))).all Key.isId = true := by
    rw [List.all_eq_true]; intro k hk
    obtain ⟨v, -, rfl⟩ := List.mem_map.1 hk; rfl
  have hfm : ((rs ++ r :: ss).map (Key.id (ι := ι))).filterMap Key.toRef? = rs ++ r :: ss := by
    generalize rs ++ r :: ss = vs
    induction vs with
    | nil => rfl
    | cons v vs ih => simp only [List.map_cons, List.filterMap_cons, ih, Key.toRef?]
  have hga : getAll p (rs ++ r :: ss) = .error (missing r) := by
    clear hall hfm
    induction rs with
    | nil =>
      cases r with
      | none => rfl
      | some u =>
        have : p.items.get? u = none := by
          rw [Dict.get?_eq_none_iff, ← Dict.has_eq_false_iff]; exact hr
        simp [getAll, get, this, missing]
    | cons a rs ih =>
      have ha := hrs a (by simp)
      cases a with
      | none => simp [contains] at ha
      | some u =>
        obtain ⟨x, hx⟩ := Option.isSome_iff_exists.1 ((Dict.get?_isSome_iff _ _).2 ((Dict.has_iff _ _).1 ha))
        simp only [List.cons_append, getAll, get, hx]
        rw [ih (fun b hb => hrs b (by simp [hb]))]
  have hne : rs ++ r :: ss ≠ [] := by simp
  generalize rs ++ r :: ss = vs at *
  cases vs with
  | nil => exact absurd rfl hne
  | cons v vs =>
    unfold getByList
    simp only [List.map_cons] at hall hfm ⊢
    rw [if_pos hall, hfm, hga]

/-- C09 (list of indices): one index outside the pile makes the whole query an `IndexError`. -/
theorem C09_index_list_outside (sub : γ → γ → Bool) (p : Pile ι γ δ) (h : Reachable sub p) (l : List (Item ι γ δ))
    (hl : iter p = .ok l) (is : List Int) (i : Int) (hi : i ∈ is) (ho : ¬ (-(l.length : Int) ≤ i ∧ i < l.length)) :
    getByList sub p (is.map Key.int) = .error .indexError := by
  have hinv := h.inv
  have hall : (is.map (Key.int (ι := ι))).all Key.isInt = true := by
    rw [List.all_eq_true]; intro k hk
    obtain ⟨v, -, rfl⟩ := List.mem_map.1 hk; rfl
  have hfm : (is.map (Key.int (ι := ι))).filterMap Key.toInt? = is := by
    clear hall hi
    induction is with
    | nil => rfl
    | cons v vs ih => simp only [List.map_cons, List.filterMap_cons, ih, Key.toInt?]
  have hia : indexAll p is = .error .indexError := by
    clear hall hfm
    induction is with
    | nil => cases hi
    | cons a is ih =>
      by_cases haout : -(l.length : Int) ≤ a ∧ a < l.length
      · have hne : i ∈ is := by
          rcases List.mem_cons.1 hi with rfl | hm
          · exact absurd haout ho
          · exact hm
        have : ∃ k, Progression.Addresses l.length a k := by
          by_cases h0 : 0 ≤ a
          · exact ⟨a.toNat, by constructor <;> omega⟩
          · exact ⟨(a + l.length).toNat, by constructor <;> omega⟩
        obtain ⟨k, hk⟩ := this
        have hok := (C09_index sub p h l hl a).1 k hk
        simp only [indexAll, hok, ih hne]
      · have := (C09_index sub p h l hl a).2 haout
        simp only [indexAll, this]
  cases is with
  | nil => cases hi
  | cons v vs =>
    unfold getByList
    simp only [List.map_cons] at hall hfm ⊢
    rw [if_pos hall, hfm, hia]

example : getByList (fun _ _ => true) ({ items := [(1, w1), (2, w2)], order := [1, 2] } : Pile Nat Unit Unit)
    ([some 1, some 3, none].map Key.id) = .error .notFound := by decide

/-! ## C226: loading a pile -/

/-- The classes that the names stand for. -/
def Named (load : String → Option γ) : Option (List String) → Option (List γ) → Prop
  | none, ts => ts = none
  | some [], ts => ts = none
  | some ns, ts => ∃ cs, ts = some cs ∧ ns.map load = cs.map some

/-- The class a serialised item says it has, if it says one that can be loaded. -/
def Declares {D : Type} (load : String → Option γ) (lionClass : D → Option String) (d : D) (c : γ) : Prop :=
  ∃ s, lionClass d = some s ∧ load s = some c

/-- A class is allowed by a constraint. -/
def Allows (sub : γ → γ → Bool) (ts : Option (List γ)) (strict : Bool) (c : γ) : Prop :=
  ∀ l, ts = some l → if strict then c ∈ l else ∃ t ∈ l, sub c t = true

theorem loadAll_iff (load : String → Option γ) (ns : List String) (cs : List γ) :
    loadAll load ns = some cs ↔ ns.map load = cs.map some := by
  induction ns generalizing cs with
  | nil => cases cs <;> simp [loadAll]
  | cons n ns ih =>
    simp only [loadAll, List.map_cons]
    cases hn : load n with
    | none => cases cs <;> simp
    | some c =>
      cases hl : loadAll load ns with
      | none =>
        cases cs with
        | nil => simp
        | cons d ds =>
          have := ih ds
          rw [hl] at this
          simp only [reduceCtorEq, false_iff] at this
          simp [this]
      | some es =>
        have := (ih es).1 hl
        cases cs with
        | nil => simp
        | cons d ds =>
          simp only [Option.some.injEq, List.cons.injEq, List.map_cons, this,
            List.map_inj_right (fun _ _ h => Option.some.inj h)]

theorem loadTypes_iff (load : String → Option γ) (ns : Option (List String)) (ts : Option (List γ)) :
    loadTypes load (itemTypeData ns) = .ok ts ↔ Named load ns ts := by
  cases ns with
  | none => simp [itemTypeData, loadTypes, Named, @eq_comm _ none ts]
  | some ns =>
    cases ns with
    | nil => simp [itemTypeData, loadTypes, Named, @eq_comm _ none ts]
    | cons n ns =>
      simp only [itemTypeData, loadTypes, Named]
      cases hl : loadAll load (n :: ns) with
      | none =>
        simp only [reduceCtorEq, false_iff]
        rintro ⟨cs, -, hc⟩
        rw [(loadAll_iff load _ cs).2 hc] at hl; cases hl
      | some cs =>
        simp only [Except.ok.injEq]
        constructor
        · rintro rfl; exact ⟨cs, rfl, (loadAll_iff load _ cs).1 hl⟩
        · rintro ⟨ds, rfl, hd⟩
          rw [(loadAll_iff load _ ds).2 hd] at hl; cases hl; rfl

theorem loadTypes_error (load : String → Option γ) (ns : List String) (n : String) (hn : n ∈ ns) (hl : load n = none) :
    loadTypes load (itemTypeData (some ns)) = .error .valueError := by
  cases hr : loadTypes load (itemTypeData (some ns)) with
  | ok ts =>
    have := (loadTypes_iff load _ _).1 hr
    cases ns with
    | nil => cases hn
    | cons a ns =>
      obtain ⟨cs, -, hc⟩ := this
      have h1 : none ∈ (a :: ns).map load := List.mem_map.2 ⟨n, hn, hl⟩
      rw [hc] at h1
      simp at h1
  | error e =>
    cases ns with
    | nil => cases hn
    | cons a ns =>
      simp only [itemTypeData, loadTypes] at hr
      split at hr <;> cases hr
      rfl

theorem precheck_false {D : Type} (sub : γ → γ → Bool) (load : String → Option γ) (lionClass : D → Option String)
    (l : List γ) (strict : Bool) (d : D) :
    precheck sub load lionClass l strict d = false ↔ ∃ c, Declares load lionClass d c ∧ ¬ Allows sub (some l) strict c := by
  unfold precheck Declares Allows
  cases hc : lionClass d with
  | none => simp
  | some s =>
    cases hs : load s with
    | none => simp [hs]
    | some c => cases strict <;> simp [hs]

theorem precheckAll_false {D : Type} (sub : γ → γ → Bool) (load : String → Option γ) (lionClass : D → Option String)
    (ts : Option (List γ)) (strict : Bool) (ds : List D) :
    precheckAll sub load lionClass ts strict ds = false ↔
      ∃ d ∈ ds, ∃ c, Declares load lionClass d c ∧ ¬ Allows sub ts strict c := by
  cases ts with
  | none => simp [precheckAll, Allows]
  | some l =>
    simp only [precheckAll, List.all_eq_false, Bool.not_eq_true, precheck_false]

/-- C226: a name of `item_type` that cannot be loaded is a `ValueError`, whatever the items are. -/
theorem C226_types {D : Type} (sub : γ → γ → Bool) (load : String → Option γ) (lionClass : D → Option String)
    (dec : D → Except Exc (Item ι γ δ)) (d : PileDict D) (ns : List String) (hns : d.itemType = some ns)
    (n : String) (hn : n ∈ ns) (hl : load n = none) : fromDict sub load lionClass dec d = .error .valueError := by
  rw [fromDict, hns, loadTypes_error load ns n hn hl]

/-- C226: an item that declares a class outside the constraint makes loading a `TypeError`, wherever it stands and
whatever building the other items would do. -/
theorem C226_fail_fast {D : Type} (sub : γ → γ → Bool) (load : String → Option γ) (lionClass : D → Option String)
    (dec : D → Except Exc (Item ι γ δ)) (d : PileDict D) (ts : Option (List γ)) (hts : Named load d.itemType ts)
    (i : D) (hi : i ∈ d.items) (c : γ) (hc : Declares load lionClass i c) (hn : ¬ Allows sub ts d.strict c) :
    fromDict sub load lionClass dec d = .error .typeError := by
  rw [fromDict, (loadTypes_iff load _ _).2 hts]
  show (if _ then _ else _) = _
  rw [if_pos ((precheckAll_false sub load lionClass ts d.strict d.items).2 ⟨i, hi, c, hc, hn⟩)]

theorem addDecoded_append {D : Type} (sub : γ → γ → Bool) (dec : D → Except Exc (Item ι γ δ)) {p : Pile ι γ δ}
    (h : Inv p) (ds es : List D) (xs : List (Item ι γ δ)) (hd : ds.map dec = xs.map .ok)
    (hv : ∀ x ∈ xs, OMap.Satisfies sub p.itemType p.strict x) (hn : (xs.map Item.id).Nodup)
    (hk : ∀ x ∈ xs, x.id ∉ p.items.keys) :
    ∃ q, addDecoded sub dec p (ds ++ es) = addDecoded sub dec q es ∧ Inv q ∧ q.itemType = p.itemType ∧
      q.strict = p.strict ∧ q.pname = p.pname ∧ abs q = abs p ++ xs := by
  obtain ⟨q, hq⟩ := addAll_ok sub h xs (fun x hx => (validType_iff sub _ _ x).2 (hv x hx)) hn hk
  obtain ⟨h1, h2, h3, h4, h5⟩ := addAll_spec sub h _ q hq
  refine ⟨q, ?_, h1, h2, h3, h4, ?_⟩
  · clear h1 h2 h3 h4 h5 hv hn hk h
    induction ds generalizing p xs with
    | nil =>
      cases xs with
      | nil => simp only [List.map_nil, addAll, Except.ok.injEq] at hq; rw [hq]; rfl
      | cons x xs => simp at hd
    | cons d ds ih =>
      cases xs with
      | nil => simp at hd
      | cons x xs =>
        simp only [List.map_cons, List.cons.injEq] at hd
        simp only [List.map_cons, addAll] at hq
        simp only [List.cons_append, addDecoded, hd.1]
        cases ha : add sub p (some x) with
        | mk p' r =>
          cases r with
          | error e => rw [ha] at hq; cases hq
          | ok u => rw [ha] at hq; exact ih xs hd.2 hq
  · have : (abs q).map some = (abs p ++ xs).map some := by simpa using h5
    exact (List.map_inj_right (fun _ _ h => Option.some.inj h)).1 this

/-- The progression name a loaded pile has: the stored one unless missing or empty. -/
def LoadedName (stored name : Option String) : Prop :=
  name = stored ∧ stored ≠ some "" ∨ name = none ∧ stored = some ""

theorem loadedName (n : Option String) : LoadedName n (truthyName n) := by
  unfold LoadedName truthyName
  cases n with
  | none => simp
  | some s => by_cases hs : s = "" <;> simp [hs]

/-- The state in which the items are added, when no check before has failed. -/
theorem fromDict_adds {D : Type} (sub : γ → γ → Bool) (load : String → Option γ) (lionClass : D → Option String)
    (dec : D → Except Exc (Item ι γ δ)) (d : PileDict D) (ts : Option (List γ)) (hts : Named load d.itemType ts)
    (hok : ∀ i ∈ d.items, ∀ c, Declares load lionClass i c → Allows sub ts d.strict c) :
    fromDict sub load lionClass dec d = addDecoded sub dec
      { itemType := ts, strict := d.strict, pname := truthyName d.progressionName } d.items := by
  rw [fromDict, (loadTypes_iff load _ _).2 hts]
  show (if _ then _ else _) = _
  rw [if_neg]
  intro h
  obtain ⟨i, hi, c, hc, hn⟩ := (precheckAll_false sub load lionClass ts d.strict d.items).1 h
  exact hn (hok i hi c hc)

/-- C226: when all declared classes are allowed, the first item that cannot be built or stored decides: the exception
of building it, `TypeError` when the item built does not satisfy the constraint, `ExistsError` when an item before
has its id. -/
theorem C226_items {D : Type} (sub : γ → γ → Bool) (load : String → Option γ) (lionClass : D → Option String)
    (dec : D → Except Exc (Item ι γ δ)) (d : PileDict D) (ts : Option (List γ)) (hts : Named load d.itemType ts)
    (hok : ∀ i ∈ d.items, ∀ c, Declares load lionClass i c → Allows sub ts d.strict c)
    (before after : List D) (i : D) (hd : d.items = before ++ i :: after)
    (xs : List (Item ι γ δ)) (hxs : before.map dec = xs.map .ok)
    (hv : ∀ x ∈ xs, OMap.Satisfies sub ts d.strict x) (hn : (xs.map Item.id).Nodup) :
    (∀ e, dec i = .error e → fromDict sub load lionClass dec d = .error e) ∧
    (∀ x, dec i = .ok x → ¬ OMap.Satisfies sub ts d.strict x → fromDict sub load lionClass dec d = .error .typeError) ∧
    (∀ x, dec i = .ok x → OMap.Satisfies sub ts d.strict x → x.id ∈ xs.map Item.id →
      fromDict sub load lionClass dec d = .error .exists_) := by
  rw [fromDict_adds sub load lionClass dec d ts hts hok, hd]
  obtain ⟨q, hq, hi, h1, h2, -, ha⟩ := addDecoded_append sub dec (inv_empty ts d.strict (truthyName d.progressionName))
    before (i :: after) xs hxs hv hn (fun x _ => List.not_mem_nil)
  rw [hq]
  simp only at h1 h2
  refine ⟨?_, ?_, ?_⟩
  · intro e he; simp only [addDecoded, he]
  · intro x hx hs
    have : validType sub ts d.strict x = false := by
      rw [← validType_iff] at hs; simpa using hs
    simp only [addDecoded, hx, add, h1, h2, this, if_true]
  · intro x hx hs hm
    have : q.items.has x.id = true := by
      rw [Dict.has_iff, ← hi.mem_iff, ← abs_ids hi, ha]
      simpa [abs] using hm
    simp only [addDecoded, hx, add, h1, h2, (validType_iff sub _ _ x).2 hs, this, Bool.true_eq_false, if_true, if_false]

/-- C226: otherwise loading gives the pile of exactly these items in this order, with the constraint, the strictness
and the name of the dict. -/
theorem C226_loaded {D : Type} (sub : γ → γ → Bool) (load : String → Option γ) (lionClass : D → Option String)
    (dec : D → Except Exc (Item ι γ δ)) (d : PileDict D) (ts : Option (List γ)) (hts : Named load d.itemType ts)
    (hok : ∀ i ∈ d.items, ∀ c, Declares load lionClass i c → Allows sub ts d.strict c)
    (xs : List (Item ι γ δ)) (hxs : d.items.map dec = xs.map .ok)
    (hv : ∀ x ∈ xs, OMap.Satisfies sub ts d.strict x) (hn : (xs.map Item.id).Nodup) :
    ∃ q, fromDict sub load lionClass dec d = .ok q ∧ iter q = .ok xs ∧ keys q = xs.map Item.id ∧ len q = xs.length ∧
      q.itemType = ts ∧ q.strict = d.strict ∧ LoadedName d.progressionName q.pname := by
  rw [fromDict_adds sub load lionClass dec d ts hts hok]
  obtain ⟨q, hq, hi, h1, h2, h3, ha⟩ := addDecoded_append sub dec (inv_empty ts d.strict (truthyName d.progressionName))
    d.items [] xs hxs hv hn (fun x _ => List.not_mem_nil)
  rw [List.append_nil] at hq
  have ha' : abs q = xs := by simpa [abs] using ha
  refine ⟨q, hq, by rw [iter_eq hi, ha'], ?_, ?_, h1, h2, ?_⟩
  · show q.order = _
    rw [← abs_ids hi, ha']
  · show q.items.length = _
    rw [← abs_length hi, ha']
  · rw [h3]; exact loadedName _

/-- Non-vacuity for C226: names load to their length; the second item declares class 3 where 2 is allowed (exactly),
and the first item could not even be built. -/
example : Named (fun s => some s.length) (some ["aa"]) (some [2]) ∧
    Declares (fun s => some s.length) (fun s : String => some s) "aaa" 3 ∧ ¬ Allows (fun _ _ => true) (some [2]) true 3 ∧
    fromDict (ι := Nat) (δ := Unit) (fun _ _ => true) (fun s => some s.length) (fun s : String => some s)
      (fun _ => .error .validation) ⟨some ["aa"], true, none, ["aa", "aaa"]⟩ = .error .typeError := by
  refine ⟨⟨[2], rfl, rfl⟩, ⟨"aaa", rfl, rfl⟩, ?_, rfl⟩
  intro h; have := h [2] rfl; simp at this

example : ∃ q, fromDict (ι := Nat) (δ := Nat) (fun _ _ => true) (fun s => some s.length) (fun _ : Nat => none)
    (fun n => .ok ⟨n, 2, n⟩) ⟨some ["aa"], true, some "p", [5, 4]⟩ = .ok q ∧ keys q = [5, 4] := ⟨_, rfl, rfl⟩

end Verif.Pile
