import Verif.Model.FlowEdit
import Verif.Props.FlowExact
import Verif.Props.FlowSerial

/-! # C295, C296 — renamed progressions; progressions and items changed behind the back of the flow -/

set_option linter.unusedSectionVars false
set_option linter.unusedSimpArgs false
set_option linter.unusedVariables false

namespace Verif.Flow

variable {ι γ δ : Type} [DecidableEq ι] [DecidableEq γ]

/-! ## Specification -/

/-- The name under which each progression came into the flow: at construction, or when `add_progression` accepted it. -/
def firstNames (ps : List (Prog ι)) (u : ι) : Option String := (ps.find? (fun p => decide (p.id = u))).bind (fun p => p.data.name)

def nextNames (f : Flow ι γ δ) (R : ι → Option String) : FAct ι γ δ → ι → Option String
  | .op (.addProgression p) => if (addProgression f p).2.isOk then (fun u => if u = p.id then p.data.name else R u) else R
  | _ => R

def namesAt (sub : γ → γ → Bool) (f : Flow ι γ δ) (R : ι → Option String) : List (FAct ι γ δ) → ι → Option String
  | [] => R
  | a :: as => namesAt sub (fStep sub f a) (nextNames f R a) as

/-- The id a key may stand for. -/
def keyId : FKey ι → Option ι
  | .ref r => r
  | .str s => s.parsed

/-- A progression is removed by id only while it bears the name under which it came into the flow. -/
def SafeKey (f : Flow ι γ δ) (R : ι → Option String) : FAct ι γ δ → Prop
  | .op (.removeProgression k) => ∀ u L, keyId k = some u → Pile.iter f.progs = .ok L → ∀ p ∈ L, p.id = u → truthy p.data.name = truthy (R u)
  | _ => True

def SafeKeys (sub : γ → γ → Bool) (f : Flow ι γ δ) (R : ι → Option String) : List (FAct ι γ δ) → Prop
  | [] => True
  | a :: as => SafeKey f R a ∧ SafeKeys sub (fStep sub f a) (nextNames f R a) as

/-! ## Piles -/

theorem rename_cases (pp : Pile ι Unit (ProgData ι)) (u : ι) (n : Option String) :
    (pp.items.get? u = none ∧ rename pp u n = pp) ∨
    (∃ p, pp.items.get? u = some p ∧ rename pp u n = { pp with items := pp.items.set u { p with data := { p.data with name := n } } }) := by
  cases hx : pp.items.get? u with
  | none => exact Or.inl ⟨rfl, by simp only [rename, hx]⟩
  | some p => exact Or.inr ⟨p, rfl, by simp only [rename, hx]⟩

theorem rename_inv {pp : Pile ι Unit (ProgData ι)} (h : Pile.Inv pp) (u : ι) (n : Option String) : Pile.Inv (rename pp u n) := by
  rcases rename_cases pp u n with ⟨_, he⟩ | ⟨p, hp, he⟩
  · rw [he]; exact h
  · rw [he]
    have hid := h.ids u p hp
    let q : Prog ι := { p with data := { p.data with name := n } }
    have e : q.id = u := hid
    have hk : q.id ∈ pp.items.keys := by rw [e]; exact Dict.mem_keys_of_get? hp
    have := (Pile.abs_set h q hk).1
    rw [e] at this
    exact this

theorem rename_get? (pp : Pile ι Unit (ProgData ι)) (u v : ι) (n : Option String) :
    (rename pp u n).items.get? v = if u = v then (pp.items.get? v).map (fun p => { p with data := { p.data with name := n } }) else pp.items.get? v := by
  rcases rename_cases pp u n with ⟨hn, he⟩ | ⟨p, hp, he⟩
  · rw [he]
    split
    · next e => subst e; rw [hn]; rfl
    · rfl
  · rw [he]
    simp only [Dict.get?_set]
    split
    · next e => subst e; rw [hp]; rfl
    · rfl

theorem PInv.fStep {f : Flow ι γ δ} (h : PInv f) (sub : γ → γ → Bool) (a : FAct ι γ δ) : PInv (fStep sub f a) := by
  cases a with
  | op o => exact h.step sub o
  | rename u n => exact ⟨h.items, rename_inv h.progs u n⟩
  | edit u o => exact ⟨h.items, modify_inv h.progs u (fun _ => o)⟩
  | items o => exact ⟨(Pile.step_refines sub h.items o).1, h.progs⟩

/-! ## The name index -/

/-- The index is the relation of the names under which the stored progressions came into the flow. -/
def NamesAs (R : ι → Option String) (f : Flow ι γ δ) : Prop :=
  ∀ n u, f.names.get? n = some u ↔ (f.progs.items.get? u).isSome = true ∧ truthy (R u) = some n

structure RInv (R : ι → Option String) (f : Flow ι γ δ) : Prop where
  piles : PInv f
  wf : f.names.WF
  names : NamesAs R f

theorem NamesAs.same {R : ι → Option String} {f g : Flow ι γ δ} (h : NamesAs R f) (hn : g.names = f.names)
    (hk : ∀ u, (g.progs.items.get? u).isSome = (f.progs.items.get? u).isSome) : NamesAs R g := by
  intro n u
  rw [hn, hk]; exact h n u

theorem RInv.drop {R : ι → Option String} {f : Flow ι γ δ} (h : RInv R f) {u : ι} (hs : (f.progs.items.get? u).isSome = true)
    (d : Dict String ι) (wf : d.WF) (hd : ∀ m, d.get? m = if truthy (R u) = some m then none else f.names.get? m) :
    RInv R { f with names := d, progs := { f.progs with items := f.progs.items.del u, order := f.progs.order.erase u } } := by
  refine ⟨⟨h.piles.items, (Pile.abs_del h.piles.progs u).1⟩, wf, ?_⟩
  intro m v
  show d.get? m = some v ↔ ((f.progs.items.del u).get? v).isSome = true ∧ _
  simp only [hd, Dict.get?_del h.piles.progs.wf]
  constructor
  · intro hm
    split at hm
    · cases hm
    · next hne =>
      obtain ⟨q, hq⟩ := (h.names m v).1 hm
      have : u ≠ v := by
        rintro rfl; exact hne hq
      exact ⟨by rw [if_neg this]; exact q, hq⟩
  · rintro ⟨hq, hqn⟩
    split at hq
    · cases hq
    · next hne =>
      have h1 := (h.names m v).2 ⟨hq, hqn⟩
      have h2 : truthy (R u) ≠ some m := by
        intro ht
        have h3 := (h.names m u).2 ⟨hs, ht⟩
        rw [h1] at h3; cases h3; exact hne rfl
      rw [if_neg h2]; exact h1

theorem RInv.removeById {R : ι → Option String} {f : Flow ι γ δ} (h : RInv R f) (r : Ref ι)
    (hs : ∀ u p, r = some u → f.progs.items.get? u = some p → truthy p.data.name = truthy (R u)) : RInv R (removeById f r).1 := by
  cases r with
  | none => exact h
  | some u =>
    simp only [Flow.removeById]
    split
    · exact h
    · next p hp =>
      rw [dropProgression_ok h.piles hp]
      have hst : (f.progs.items.get? u).isSome = true := by rw [hp]; rfl
      have ht := hs u p rfl hp
      apply h.drop hst
      · unfold unregister
        split
        · split
          · exact Dict.del_wf h.wf _
          · exact h.wf
        · exact h.wf
      · intro m
        rw [← ht]
        unfold unregister
        cases hq : truthy p.data.name with
        | none => simp
        | some n =>
          simp only [Option.some.injEq]
          have := (h.names n u).2 ⟨hst, by rw [← ht, hq]⟩
          have hh : f.names.has n = true := (Dict.has_iff _ _).2 (Dict.mem_keys_of_get? this)
          rw [if_pos hh, Dict.get?_del h.wf]

theorem RInv.removeProgression {R : ι → Option String} {f : Flow ι γ δ} (h : RInv R f) (k : FKey ι)
    (hs : ∀ u p, keyId k = some u → f.progs.items.get? u = some p → truthy p.data.name = truthy (R u)) : RInv R (removeProgression f k).1 := by
  cases k with
  | ref r => exact h.removeById r hs
  | str s =>
    simp only [Flow.removeProgression]
    split
    · next u hu =>
      obtain ⟨hst, hR⟩ := (h.names _ _).1 hu
      obtain ⟨p, hp⟩ := Option.isSome_iff_exists.1 hst
      simp only [hp]
      rw [dropProgression_ok h.piles hp]
      apply h.drop hst _ (Dict.del_wf h.wf _)
      intro m
      rw [Dict.get?_del h.wf, hR]
      simp
    · exact h.removeById _ hs

theorem RInv.addProgression {R : ι → Option String} {f : Flow ι γ δ} (h : RInv R f) (p : Prog ι) :
    RInv (nextNames f R (.op (.addProgression p))) (addProgression f p).1 := by
  rcases addProgression_cases f p with ⟨e, he⟩ | ⟨hfree, _, hk, he⟩
  · have : nextNames f R (.op (.addProgression p)) = R := by
      simp [nextNames, he, Except.isOk, Except.toBool]
    rw [this, he]; exact h
  have hR : nextNames f R (.op (.addProgression p)) = fun u => if u = p.id then p.data.name else R u := by
    simp [nextNames, he, Except.isOk, Except.toBool]
  have h1 := h.piles.addProgression p
  have h2 := addProgression_names_wf h.wf p
  refine ⟨h1, h2, ?_⟩
  rw [he, hR]
  have hnone : f.progs.items.get? p.id = none := (Dict.get?_eq_none_iff _ _).2 hk
  intro m u
  simp only [Dict.get?_set]
  by_cases hu : u = p.id
  · subst hu
    simp only [if_true, Option.isSome_some, true_and]
    have hno : f.names.get? m ≠ some p.id := by
      intro hc
      have := ((h.names m _).1 hc).1
      rw [hnone] at this; cases this
    unfold register
    cases ht : truthy p.data.name with
    | none => simp [hno]
    | some n =>
      simp only [Dict.get?_set, Option.some.injEq]
      by_cases e : n = m
      · simp [e]
      · simp [e, hno]
  · simp only [if_neg hu, if_neg (Ne.symm hu)]
    rw [← h.names m u]
    unfold register
    cases ht : truthy p.data.name with
    | none => rfl
    | some n =>
      simp only [nameTaken, ht] at hfree
      rw [Dict.has_eq_false_iff, ← Dict.get?_eq_none_iff] at hfree
      simp only [Dict.get?_set]
      by_cases e : n = m
      · subst e
        simp [hfree, Ne.symm hu]
      · simp [e]

theorem RInv.fStep {R : ι → Option String} {f : Flow ι γ δ} (h : RInv R f) (sub : γ → γ → Bool) (a : FAct ι γ δ) (hs : SafeKey f R a) :
    RInv (nextNames f R a) (fStep sub f a) := by
  cases a with
  | op o =>
    cases o with
    | addProgression p => exact h.addProgression p
    | removeProgression k =>
      refine h.removeProgression k ?_
      intro u p hk hp
      have hid := h.piles.progs.ids u p hp
      exact hs u _ hk (Pile.iter_eq h.piles.progs) p ((Pile.mem_abs h.piles.progs p).2 (by rw [hid]; exact hp)) hid
    | addItem a ps =>
      have hP := h.piles.addItem sub a ps
      have key : (Flow.addItem sub f a ps).1.names = f.names ∧ ∀ v, ((Flow.addItem sub f a ps).1.progs.items.get? v).isSome = (f.progs.items.get? v).isSome := by
        unfold Flow.addItem
        rcases Pile.add_cases sub f.items a with ⟨e, he⟩ | ⟨x, rfl, hk, he⟩
        · rw [he]; exact ⟨rfl, fun _ => rfl⟩
        · rw [he]
          simp only
          have h' : PInv { f with items := { f.items with items := f.items.items.set x.id x, order := f.items.order ++ [x.id] } } :=
            ⟨(Pile.abs_add h.piles.items x hk).1, h.piles.progs⟩
          obtain ⟨h1, h2, h3, h4, h5⟩ := appendAll_spec x.id ps _ h'
          refine ⟨h2, ?_⟩
          intro v
          obtain ⟨k, hk⟩ := h5 v
          rw [hk, Option.isSome_map]
      refine ⟨hP, ?_, h.names.same key.1 key.2⟩
      show (Flow.addItem sub f a ps).1.names.WF
      rw [key.1]; exact h.wf
    | removeItem r =>
      have hP := h.piles.removeItem r
      have key : (Flow.removeItem f r).1.names = f.names ∧ ∀ v, ((Flow.removeItem f r).1.progs.items.get? v).isSome = (f.progs.items.get? v).isSome := by
        cases r with
        | none => exact ⟨rfl, fun _ => rfl⟩
        | some uid =>
          obtain ⟨qq, h1, h2, h3, h4⟩ := removeItem_eq h.piles uid
          rw [h4]
          refine ⟨rfl, ?_⟩
          intro v
          show (qq.items.get? v).isSome = _
          rw [h3 v, Option.isSome_map]
      refine ⟨hP, ?_, h.names.same key.1 key.2⟩
      show (Flow.removeItem f r).1.names.WF
      rw [key.1]; exact h.wf
  | rename u n =>
    refine ⟨h.piles.fStep sub _, h.wf, h.names.same rfl ?_⟩
    intro v
    show ((rename f.progs u n).items.get? v).isSome = _
    rw [rename_get?]
    split
    · rw [Option.isSome_map]
    · rfl
  | edit u o =>
    refine ⟨h.piles.fStep sub _, h.wf, h.names.same rfl ?_⟩
    intro v
    show ((modify f.progs u (fun _ => o)).items.get? v).isSome = _
    rw [modify_get?]
    split
    · rw [Option.isSome_map]
    · rfl
  | items o => exact ⟨h.piles.fStep sub _, h.wf, h.names.same rfl (fun _ => rfl)⟩

theorem RInv.fRun (sub : γ → γ → Bool) (as : List (FAct ι γ δ)) {R : ι → Option String} {f : Flow ι γ δ} (h : RInv R f) (hs : SafeKeys sub f R as) :
    RInv (namesAt sub f R as) (fRun sub f as) := by
  induction as generalizing f R with
  | nil => exact h
  | cons a as ih => exact ih (h.fStep sub a hs.1) hs.2

theorem Built.rinv {sub : γ → γ → Bool} {xs : List (Pile.Arg ι γ δ)} {t : Option (List γ)} {s : Bool}
    {ps : List (Prog ι)} {f0 : Flow ι γ δ} (h : Built sub xs t s ps f0) (hd : DistinctNames ps) : RInv (firstNames ps) f0 := by
  have hg := h.good hd
  have ha := h.ok.2.1
  refine ⟨hg.piles, hg.namesWF, ?_⟩
  intro n u
  rw [hg.names n u]
  have hf : ps.find? (fun p => decide (p.id = u)) = f0.progs.items.get? u := by
    rw [← ha]; exact Pile.lookup_abs hg.piles.progs u
  unfold firstNames
  rw [hf]
  constructor
  · rintro ⟨p, hp, hn⟩
    rw [hp]; exact ⟨rfl, hn⟩
  · rintro ⟨hp, hn⟩
    obtain ⟨p, hp⟩ := Option.isSome_iff_exists.1 hp
    rw [hp] at hn
    exact ⟨p, hp, hn⟩

theorem cfg_rename (pp : Pile ι Unit (ProgData ι)) (u : ι) (n : Option String) : SameCfg pp (rename pp u n) := by
  rcases rename_cases pp u n with ⟨_, he⟩ | ⟨p, _, he⟩ <;> rw [he] <;> exact ⟨rfl, rfl, rfl⟩

theorem cfg_fRun (sub : γ → γ → Bool) (as : List (FAct ι γ δ)) (f : Flow ι γ δ) : SameCfg f.progs (fRun sub f as).progs := by
  induction as generalizing f with
  | nil => exact SameCfg.refl _
  | cons a as ih =>
    refine SameCfg.trans ?_ (ih (fStep sub f a))
    cases a with
    | op o => exact (cfg_step sub f o).1
    | rename u n => exact cfg_rename _ u n
    | edit u o => exact cfg_modify _ u _
    | items o => exact SameCfg.refl _

/-! ## C295 -/

/-- C295 (partial: progressions are found under the name they came in with, not under the one they bear, and removals by id of renamed progressions are left out). -/
theorem C295_answers_partial (sub : γ → γ → Bool) (xs : List (Pile.Arg ι γ δ)) (t : Option (List γ)) (s : Bool)
    (ps : List (Prog ι)) (f0 : Flow ι γ δ) (h : Built sub xs t s ps f0) (hd : DistinctNames ps) (as : List (FAct ι γ δ))
    (hs : SafeKeys sub f0 (firstNames ps) as) (f : Flow ι γ δ) (hf : f = fRun sub f0 as) (R : ι → Option String) (hR : R = namesAt sub f0 (firstNames ps) as) :
    ∃ L, Pile.iter f.progs = .ok L ∧
      (∀ p ∈ L, ∀ n parsed, n ≠ "" → R p.id = some n → getProgression f (.str ⟨n, parsed⟩) = .ok p) ∧
      (∀ n, (∀ p ∈ L, R p.id ≠ some n) → getProgression f (.str ⟨n, none⟩) = .error .keyError) ∧
      (∀ p ∈ L, getProgression f (.ref (some p.id)) = .ok p) ∧
      (∀ p ∈ L, ∀ q : Prog ι, ∀ n, n ≠ "" → R p.id = some n → q.data.name = some n → addProgression f q = (f, .error .exists_)) ∧
      (∀ q : Prog ι, (∀ p ∈ L, p.id ≠ q.id) → (∀ n, n ≠ "" → q.data.name = some n → ∀ p ∈ L, R p.id ≠ some n) →
        (∀ u ∈ q.data.order, Pile.contains f.items (some u) = true) → (addProgression f q).2 = .ok ()) := by
  have hg := RInv.fRun sub as (h.rinv hd) hs
  rw [← hf, ← hR] at hg
  have hmem : ∀ p, p ∈ Pile.abs f.progs ↔ f.progs.items.get? p.id = some p := Pile.mem_abs hg.piles.progs
  have hin : ∀ n u, f.names.get? n = some u → ∃ p ∈ Pile.abs f.progs, p.id = u ∧ R u = some n := by
    intro n u hc
    obtain ⟨h1, h2⟩ := (hg.names n u).1 hc
    obtain ⟨p, hp⟩ := Option.isSome_iff_exists.1 h1
    have hid := hg.piles.progs.ids u p hp
    exact ⟨p, (hmem p).2 (by rw [hid]; exact hp), hid, ((truthy_eq_some_iff _ _).1 h2).1⟩
  have habsent : ∀ n, (∀ p ∈ Pile.abs f.progs, R p.id ≠ some n) → f.names.get? n = none := by
    intro n hn
    cases hc : f.names.get? n with
    | none => rfl
    | some u =>
      obtain ⟨p, hp, hid, hr⟩ := hin n u hc
      exact absurd (by rw [hid]; exact hr) (hn p hp)
  have hreg : ∀ p ∈ Pile.abs f.progs, ∀ n, n ≠ "" → R p.id = some n → f.names.get? n = some p.id := by
    intro p hp n hne hr
    exact (hg.names n p.id).2 ⟨by rw [(hmem p).1 hp]; rfl, (truthy_eq_some_iff _ _).2 ⟨hr, hne⟩⟩
  refine ⟨Pile.abs f.progs, Pile.iter_eq hg.piles.progs, ?_, ?_, ?_, ?_, ?_⟩
  · intro p hp n parsed hne hr
    simp [getProgression, hreg p hp n hne hr, (hmem p).1 hp]
  · intro n hn
    simp [getProgression, habsent n hn]
  · intro p hp
    simp [getProgression, (hmem p).1 hp]
  · intro p hp q n hne hr hq
    have : nameTaken f.names q = true := by
      simp only [nameTaken, (truthy_eq_some_iff _ _).2 ⟨hq, hne⟩]
      exact (Dict.has_iff _ _).2 (Dict.mem_keys_of_get? (hreg p hp n hne hr))
    simp [addProgression, this]
  · intro q hid hname hord
    have h1 : nameTaken f.names q = false := by
      simp only [nameTaken]
      cases ht : truthy q.data.name with
      | none => rfl
      | some n =>
        obtain ⟨hq, hne⟩ := (truthy_eq_some_iff _ _).1 ht
        show f.names.has n = false
        rw [Dict.has_eq_false_iff, ← Dict.get?_eq_none_iff]
        exact habsent n (hname n hne hq)
    have h2 : missing f.items q.data.order = false := by
      simp only [missing, List.any_eq_false]
      intro u hu
      have := hord u hu
      simp only [Pile.contains, Dict.has_iff] at this
      simp only [Bool.not_eq_true, Bool.not_eq_false', decide_eq_true_eq]
      exact (hg.piles.items.mem_iff u).2 this
    have h3 : f.progs.items.has q.id = false := by
      rw [Dict.has_eq_false_iff]
      intro hk
      obtain ⟨p, hp⟩ := Option.isSome_iff_exists.1 ((Dict.get?_isSome_iff _ _).2 hk)
      have hi := hg.piles.progs.ids _ p hp
      exact hid p ((hmem p).2 (by rw [hi]; exact hp)) hi
    rcases Pile.add_cases anySub f.progs (some q) with ⟨e, he⟩ | ⟨x, hx, hk, he⟩
    · exfalso
      have hc := (cfg_fRun sub as f0).1
      rw [← hf, h.cfg.1] at hc
      have hv : Pile.validType anySub f.progs.itemType f.progs.strict q = true := by
        rw [hc]; rfl
      simp [Pile.add, hv, h3] at he
    · rw [addProgression, if_neg (by rw [h1]; decide), if_neg (by rw [h2]; decide), he]

/-- Every progression is found under the name it bears, and under no other name. -/
def FoundByName (f : Flow ι γ δ) (L : List (Prog ι)) : Prop :=
  (∀ p ∈ L, ∀ n, n ≠ "" → p.data.name = some n → getProgression f (.str ⟨n, none⟩) = .ok p) ∧
  (∀ n, (∀ p ∈ L, p.data.name ≠ some n) → getProgression f (.str ⟨n, none⟩) = .error .keyError)

/-- C295 (partial): every progression is found under the name it bears, and under no other, exactly if each bears the name it came in with. -/
theorem C295_exact_partial (sub : γ → γ → Bool) (xs : List (Pile.Arg ι γ δ)) (t : Option (List γ)) (s : Bool)
    (ps : List (Prog ι)) (f0 : Flow ι γ δ) (h : Built sub xs t s ps f0) (hd : DistinctNames ps) (as : List (FAct ι γ δ))
    (hs : SafeKeys sub f0 (firstNames ps) as) (L : List (Prog ι)) (hL : Pile.iter (fRun sub f0 as).progs = .ok L) :
    FoundByName (fRun sub f0 as) L ↔ ∀ p ∈ L, truthy p.data.name = truthy (namesAt sub f0 (firstNames ps) as p.id) := by
  obtain ⟨L', hL', h1, h2, _, _, _⟩ := C295_answers_partial sub xs t s ps f0 h hd as hs _ rfl _ rfl
  have hg := RInv.fRun sub as (h.rinv hd) hs
  rw [hL] at hL'
  cases hL'
  generalize namesAt sub f0 (firstNames ps) as = R at *
  generalize fRun sub f0 as = f at *
  rw [Pile.iter_eq hg.piles.progs] at hL
  cases hL
  have hmem : ∀ p, p ∈ Pile.abs f.progs ↔ f.progs.items.get? p.id = some p := Pile.mem_abs hg.piles.progs
  constructor
  · rintro ⟨a1, a2⟩ p hp
    cases ht : truthy p.data.name with
    | some n =>
      obtain ⟨hn, hne⟩ := (truthy_eq_some_iff _ _).1 ht
      have hgp := a1 p hp n hne hn
      have hx : ∃ q ∈ Pile.abs f.progs, R q.id = some n := by
        apply Classical.byContradiction
        intro hc
        rw [h2 n (fun q hq hr => hc ⟨q, hq, hr⟩)] at hgp
        cases hgp
      obtain ⟨q, hq, hr⟩ := hx
      rw [h1 q hq n none hne hr] at hgp
      cases hgp
      exact ((truthy_eq_some_iff _ _).2 ⟨hr, hne⟩).symm
    | none =>
      cases hr : truthy (R p.id) with
      | none => rfl
      | some n =>
        exfalso
        obtain ⟨hn, hne⟩ := (truthy_eq_some_iff _ _).1 hr
        have hgp := h1 p hp n none hne hn
        have hx : ∃ q ∈ Pile.abs f.progs, q.data.name = some n := by
          apply Classical.byContradiction
          intro hc
          rw [a2 n (fun q hq hr => hc ⟨q, hq, hr⟩)] at hgp
          cases hgp
        obtain ⟨q, hq, hqn⟩ := hx
        rw [a1 q hq n hne hqn] at hgp
        cases hgp
        rw [(truthy_eq_some_iff _ _).2 ⟨hqn, hne⟩] at ht
        cases ht
  · intro hall
    refine ⟨?_, ?_⟩
    · intro p hp n hne hn
      have := hall p hp
      rw [(truthy_eq_some_iff _ _).2 ⟨hn, hne⟩] at this
      exact h1 p hp n none hne ((truthy_eq_some_iff _ _).1 this.symm).1
    · intro n hn
      by_cases hne : n = ""
      · subst hne
        have : f.names.get? "" = none := by
          cases hc : f.names.get? "" with
          | none => rfl
          | some u =>
            have := ((truthy_eq_some_iff _ _).1 ((hg.names _ _).1 hc).2).2
            exact absurd rfl this
        simp [getProgression, this]
      · apply h2
        intro p hp hr
        have := hall p hp
        rw [(truthy_eq_some_iff _ _).2 ⟨hr, hne⟩] at this
        exact hn p hp ((truthy_eq_some_iff _ _).1 this).1

/-- A progression "a" is renamed to "b". -/
def renamed : List (FAct Nat Unit Unit) := [.rename 10 (some "b")]

/-- The hypotheses are met by a history with a renaming, an addition under the vacated-looking name, and a removal by name. -/
example : Built (fun _ _ => true) [some i1, some i2] none false [p10 (some "a") [1]] (flow1 (p10 (some "a") [1])) ∧ DistinctNames [p10 (some "a") [1]] ∧
    SafeKeys (fun _ _ => true) (flow1 (p10 (some "a") [1])) (firstNames [p10 (some "a") [1]])
      (renamed ++ [.op (.addProgression (p11 (some "b") [2])), .op (.removeProgression (.str ⟨"a", none⟩))]) := by
  refine ⟨flow1_built _ _ (by decide), (by unfold DistinctNames; decide), trivial, trivial, ?_, trivial⟩
  intro u L hk
  cases hk

/-- C295, refuted in full: after renaming "a" to "b" the progression is not found as "b" but as "a"; a second "b" is accepted; and after the renamed one is removed by id,
"a" can neither be looked up nor given to a new progression. -/
theorem C295_violation :
    let f := fRun (fun _ _ => true) (flow1 (p10 (some "a") [1])) renamed
    Pile.iter f.progs = .ok [p10 (some "b") [1]] ∧
    getProgression f (.str ⟨"b", none⟩) = .error .keyError ∧
    getProgression f (.str ⟨"a", none⟩) = .ok (p10 (some "b") [1]) ∧
    Pile.iter (addProgression f (p11 (some "b") [2])).1.progs = .ok [p10 (some "b") [1], p11 (some "b") [2]] ∧
    (removeProgression f (.ref (some 10))).2 = .ok (p10 (some "b") [1]) ∧
    getProgression (removeProgression f (.ref (some 10))).1 (.str ⟨"a", none⟩) = .error .notFound ∧
    (addProgression (removeProgression f (.ref (some 10))).1 (p11 (some "a") [2])).2 = .error .exists_ := by
  refine ⟨by decide, by decide, by decide, by decide, by decide, by decide, by decide⟩

/-! ## C296 -/

/-- The ids a call of a method of the items pile takes out. -/
def Leaves : Pile.Op ι γ δ → ι → Prop
  | .remove r, x => r = some x
  | .pop r _, x => r = some x
  | .exclude r, x => r = some x
  | .clear, _ => True
  | _, _ => False

/-- The acts that respect the references, `L` being the progressions of the flow. -/
def Keeps (f : Flow ι γ δ) (L : List (Prog ι)) : FAct ι γ δ → Prop
  | .op o => ∀ u, o = .removeItem (some u) → ∀ p ∈ L, p.data.order.count u ≤ 1
  | .rename _ _ => True
  | .edit u order => (∃ p ∈ L, p.id = u) → ∀ x ∈ order, Pile.contains f.items (some x) = true
  | .items o => ∀ p ∈ L, ∀ x ∈ p.data.order, ¬ Leaves o x

def AllKeep (sub : γ → γ → Bool) (f : Flow ι γ δ) : List (FAct ι γ δ) → Prop
  | [] => True
  | a :: as => (∀ L, Pile.iter f.progs = .ok L → Keeps f L a) ∧ AllKeep sub (fStep sub f a) as

theorem without_ids (l : List (Item ι γ δ)) (u x : ι) : x ∈ (OMap.without l u).map Item.id ↔ x ∈ l.map Item.id ∧ x ≠ u := by
  simp only [OMap.without, List.mem_map, List.mem_filter, decide_eq_true_eq]
  constructor
  · rintro ⟨y, ⟨h1, h2⟩, rfl⟩; exact ⟨⟨y, h1, rfl⟩, h2⟩
  · rintro ⟨⟨y, h1, rfl⟩, h2⟩; exact ⟨y, ⟨h1, h2⟩, rfl⟩

theorem replace_ids (l : List (Item ι γ δ)) (y : Item ι γ δ) : (OMap.replace l y).map Item.id = l.map Item.id := by
  unfold OMap.replace
  rw [List.map_map]
  apply List.map_congr_left
  intro z _
  simp only [Function.comp]
  split
  · next h => exact h.symm
  · rfl

theorem lookup_none_iff (l : List (Item ι γ δ)) (u : ι) : OMap.lookup l u = none ↔ u ∉ l.map Item.id := by
  simp only [OMap.lookup, List.find?_eq_none, decide_eq_true_eq, List.mem_map, not_exists, not_and]

theorem omap_leaves (ok : Item ι γ δ → Bool) (l : List (Item ι γ δ)) (o : Pile.Op ι γ δ) (x : ι) (hx : x ∈ l.map Item.id) :
    x ∈ (OMap.step ok l o).1.map Item.id ↔ ¬ Leaves o x := by
  have hrem : ∀ u, OMap.lookup l u = none → u ≠ x := by
    rintro u hu rfl; exact (lookup_none_iff l u).1 hu hx
  cases o with
  | add a =>
    cases a with
    | none => simp [OMap.step, Leaves, hx]
    | some y =>
      simp only [OMap.step, Leaves, not_false_eq_true, iff_true]
      split
      · exact hx
      · split
        · exact hx
        · simp only [List.map_append, List.mem_append]; exact Or.inl hx
  | remove r =>
    cases r with
    | none => simp [OMap.step, Leaves, hx]
    | some u =>
      simp only [OMap.step, Leaves, Option.some.injEq]
      split
      · next h => simp [hrem u h, hx]
      · rw [without_ids]; exact ⟨fun h => Ne.symm h.2, fun h => ⟨hx, Ne.symm h⟩⟩
  | pop r d =>
    cases r with
    | none => simp [OMap.step, Leaves, hx]
    | some u =>
      simp only [OMap.step, Leaves, Option.some.injEq]
      split
      · next h => simp [hrem u h, hx]
      · rw [without_ids]; exact ⟨fun h => Ne.symm h.2, fun h => ⟨hx, Ne.symm h⟩⟩
  | get r d =>
    cases r with
    | none => simp [OMap.step, Leaves, hx]
    | some u =>
      simp only [OMap.step, Leaves, not_false_eq_true, iff_true]
      split <;> exact hx
  | update a =>
    cases a with
    | none => simp [OMap.step, Leaves, hx]
    | some y =>
      simp only [OMap.step, Leaves, not_false_eq_true, iff_true]
      split
      · exact hx
      · split
        · rw [replace_ids]; exact hx
        · exact hx
  | clear => simp [OMap.step, Leaves]
  | include_ a =>
    cases a with
    | none => simp [OMap.step, Leaves, hx]
    | some y =>
      simp only [OMap.step, Leaves, not_false_eq_true, iff_true]
      split
      · exact hx
      · split
        · exact hx
        · simp only [List.map_append, List.mem_append]; exact Or.inl hx
  | exclude r =>
    cases r with
    | none => simp [OMap.step, Leaves, hx]
    | some u =>
      simp only [OMap.step, Leaves, Option.some.injEq]
      rw [without_ids]; exact ⟨fun h => Ne.symm h.2, fun h => ⟨hx, Ne.symm h⟩⟩
  | contains r => cases r <;> simp [OMap.step, Leaves, hx]
  | len => simp [OMap.step, Leaves, hx]
  | iter => simp [OMap.step, Leaves, hx]

theorem keys_ids {p : Pile ι γ δ} (h : Pile.Inv p) (x : ι) : x ∈ p.items.keys ↔ x ∈ (Pile.abs p).map Item.id := by
  rw [Pile.abs_ids h, h.mem_iff]

theorem Integrity.fStep_iff {f : Flow ι γ δ} (h : PInv f) (hI : Integrity f) (sub : γ → γ → Bool) (a : FAct ι γ δ)
    (ha : ∀ o, a ≠ .op o) : Integrity (fStep sub f a) ↔ Keeps f (Pile.abs f.progs) a := by
  have hmem : ∀ p, p ∈ Pile.abs f.progs ↔ f.progs.items.get? p.id = some p := Pile.mem_abs h.progs
  cases a with
  | op o => exact absurd rfl (ha o)
  | rename u n =>
    refine ⟨fun _ => trivial, fun _ => ?_⟩
    intro v p hp x hx
    replace hp : (rename f.progs u n).items.get? v = some p := hp
    rw [rename_get?] at hp
    split at hp
    · cases hq : f.progs.items.get? v with
      | none => rw [hq] at hp; cases hp
      | some q => rw [hq] at hp; cases hp; exact hI v q hq x hx
    · exact hI v p hp x hx
  | edit u o =>
    constructor
    · rintro hJ ⟨p, hp, rfl⟩ x hx
      have hq : (modify f.progs p.id (fun _ => o)).items.get? p.id = some (upd (fun _ => o) p) := by
        rw [modify_get?, if_pos rfl, (hmem p).1 hp]; rfl
      have := hJ p.id _ hq x hx
      exact (Dict.has_iff _ _).2 this
    · intro hk v p hp x hx
      replace hp : (modify f.progs u (fun _ => o)).items.get? v = some p := hp
      rw [modify_get?] at hp
      split at hp
      · next e =>
        subst e
        cases hq : f.progs.items.get? u with
        | none => rw [hq] at hp; cases hp
        | some q =>
          rw [hq] at hp; cases hp
          have hid := h.progs.ids u q hq
          exact (Dict.has_iff _ _).1 (hk ⟨q, (hmem q).2 (by rw [hid]; exact hq), hid⟩ x hx)
      · exact hI v p hp x hx
  | items o =>
    have hr := Pile.step_refines sub h.items o
    have h2 := congrArg Prod.fst hr.2.1
    simp only at h2
    have key : ∀ x, x ∈ f.items.items.keys → (x ∈ (Pile.step sub f.items o).1.items.keys ↔ ¬ Leaves o x) := by
      intro x hx
      rw [keys_ids hr.1, h2]
      exact omap_leaves _ _ o x ((keys_ids h.items x).1 hx)
    constructor
    · intro hJ p hp x hx
      exact (key x (hI p.id p ((hmem p).1 hp) x hx)).1 (hJ p.id p ((hmem p).1 hp) x hx)
    · intro hk v p hp x hx
      have hid := h.progs.ids v p hp
      exact (key x (hI v p hp x hx)).2 (hk p ((hmem p).2 (by rw [hid]; exact hp)) x hx)

theorem PInv.fRun {f : Flow ι γ δ} (h : PInv f) (sub : γ → γ → Bool) (as : List (FAct ι γ δ)) : PInv (fRun sub f as) := by
  induction as generalizing f with
  | nil => exact h
  | cons a as ih => exact ih (h.fStep sub a)

/-- C296 (partial): an act done on an intact flow leaves it intact exactly if it respects the references. -/
theorem C296_exact_partial (sub : γ → γ → Bool) (xs : List (Pile.Arg ι γ δ)) (t : Option (List γ)) (s : Bool)
    (ps : List (Prog ι)) (f0 : Flow ι γ δ) (h : Built sub xs t s ps f0) (as : List (FAct ι γ δ)) (hR : Referential (fRun sub f0 as))
    (L : List (Prog ι)) (hL : Pile.iter (fRun sub f0 as).progs = .ok L) (a : FAct ι γ δ) :
    Referential (fStep sub (fRun sub f0 as) a) ↔ Keeps (fRun sub f0 as) L a := by
  have hg := h.ok.1.fRun sub as
  generalize fRun sub f0 as = f at *
  rw [Pile.iter_eq hg.progs] at hL
  cases hL
  rw [referential_iff (hg.fStep sub a)]
  rw [referential_iff hg] at hR
  by_cases ha : ∃ o, a = .op o
  · obtain ⟨o, rfl⟩ := ha
    exact integrity_step_iff hg hR sub o
  · exact Integrity.fStep_iff hg hR sub a (fun o e => ha ⟨o, e⟩)

/-- C296 (partial): histories whose acts all respect the references end in an intact flow. -/
theorem C296_kept_partial (sub : γ → γ → Bool) (xs : List (Pile.Arg ι γ δ)) (t : Option (List γ)) (s : Bool)
    (ps : List (Prog ι)) (f0 : Flow ι γ δ) (h : Built sub xs t s ps f0) (as : List (FAct ι γ δ)) (hk : AllKeep sub f0 as) :
    Referential (fRun sub f0 as) := by
  have hp := h.ok.1
  have hi := h.ok.2.2
  clear h
  rw [referential_iff (hp.fRun sub as)]
  induction as generalizing f0 with
  | nil => exact hi
  | cons a as ih =>
    refine ih (fStep sub f0 a) hk.2 (hp.fStep sub a) ?_
    have := hk.1 _ (Pile.iter_eq hp.progs)
    by_cases ha : ∃ o, a = .op o
    · obtain ⟨o, rfl⟩ := ha
      exact (integrity_step_iff hp hi sub o).2 this
    · exact (Integrity.fStep_iff hp hi sub a (fun o e => ha ⟨o, e⟩)).2 this

/-- C296 (partial): building a flow anew from the items and progressions of a flow — as `from_dict` does — tells: it fails with `NotFoundError` exactly if the flow is not intact. -/
theorem C296_rebuild_partial (sub : γ → γ → Bool) (xs : List (Pile.Arg ι γ δ)) (t : Option (List γ)) (s : Bool)
    (ps : List (Prog ι)) (f0 : Flow ι γ δ) (h : Built sub xs t s ps f0) (as : List (FAct ι γ δ))
    (L : List (Prog ι)) (hL : Pile.iter (fRun sub f0 as).progs = .ok L) :
    (Referential (fRun sub f0 as) → ∃ f, mk' (fRun sub f0 as).items L = .ok f ∧ f.items = (fRun sub f0 as).items ∧ Pile.iter f.progs = .ok L) ∧
    (¬ Referential (fRun sub f0 as) → mk' (fRun sub f0 as).items L = .error .notFound) := by
  have hg := h.ok.1.fRun sub as
  generalize fRun sub f0 as = f at *
  rw [Pile.iter_eq hg.progs] at hL
  cases hL
  have hn := Pile.abs_nodup hg.progs
  have hv : ∀ p ∈ Pile.abs f.progs, Pile.validType anySub none false p = true := fun _ _ => rfl
  obtain ⟨pp, hpp⟩ := Pile.addAll_ok anySub (Pile.inv_empty none false none) (Pile.abs f.progs) hv hn (by intro x _ hx; cases hx)
  have hs := Pile.addAll_spec anySub (Pile.inv_empty none false none) _ pp hpp
  have habs : Pile.abs pp = Pile.abs f.progs := by
    have := hs.2.2.2.2
    simp only [Pile.abs, List.filterMap_nil, List.map_nil, List.nil_append] at this
    exact (List.map_inj_right (fun _ _ h => Option.some.inj h)).1 this
  have hit : Pile.iter pp = .ok (Pile.abs f.progs) := by rw [Pile.iter_eq hs.1, habs]
  have hmem : ∀ p, p ∈ Pile.abs f.progs ↔ f.progs.items.get? p.id = some p := Pile.mem_abs hg.progs
  have hmiss : ((Pile.abs f.progs).any (fun p => missing f.items p.data.order) = false) ↔ Integrity f := by
    constructor
    · intro ha u p hp
      have hid := hg.progs.ids u p hp
      have := List.any_eq_false.1 ha p ((hmem p).2 (by rw [hid]; exact hp))
      exact not_missing hg.items (by simpa using this)
    · intro hI
      rw [List.any_eq_false]
      intro p hp hc
      simp only [missing, List.any_eq_true, Bool.not_eq_true', decide_eq_false_iff_not] at hc
      obtain ⟨u, hu, hno⟩ := hc
      exact hno ((hg.items.mem_iff u).2 (hI p.id p ((hmem p).1 hp) u hu))
  rw [referential_iff hg, ← hmiss]
  simp only [mk', hpp, hit]
  refine ⟨?_, ?_⟩
  · intro ha
    rw [if_neg (by rw [ha]; decide)]
    exact ⟨_, rfl, rfl, hit⟩
  · intro ha
    rw [if_pos (by simpa using ha)]

/-- The hypotheses are met: an order is edited and an unlisted item is taken out of the pile. -/
example : AllKeep (fun _ _ => true) (flow1 (p10 (some "a") [1])) [.edit 10 [2, 2], .items (.remove (some 1))] := by
  refine ⟨?_, ?_, trivial⟩
  · intro L hL _ x hx
    simp only [List.mem_cons, List.not_mem_nil, or_false, or_self] at hx
    subst hx
    decide
  · intro L hL p hp x hx
    have : L = [p10 (some "a") [2, 2]] := by
      have h2 : Pile.iter (fStep (fun _ _ => true) (flow1 (p10 (some "a") [1])) (.edit 10 [2, 2])).progs = .ok [p10 (some "a") [2, 2]] := by decide
      rw [hL] at h2; cases h2; rfl
    subst this
    simp only [List.mem_cons, List.not_mem_nil, or_false] at hp
    subst hp
    replace hx : x ∈ [2, 2] := hx
    simp only [List.mem_cons, List.not_mem_nil, or_false, or_self] at hx
    subst hx
    simp [Leaves]

/-- C296, refuted in full: appending an unknown id to a stored progression, and removing a listed item from the items pile, are accepted. -/
theorem C296_violation :
    ¬ Referential (fRun (fun _ _ => true) (flow1 (p10 (some "a") [1])) [.edit 10 [1, 9]]) ∧
    ¬ Referential (fRun (fun _ _ => true) (flow1 (p10 (some "a") [1])) [.items (.remove (some 1))]) := by
  have hb := (flow1_built (some "a") [1] (by decide)).ok.1
  constructor
  · intro h
    rw [referential_iff (hb.fRun _ _)] at h
    exact absurd (h 10 (p10 (some "a") [1, 9]) (by decide) 9 (by decide)) (by decide)
  · intro h
    rw [referential_iff (hb.fRun _ _)] at h
    exact absurd (h 10 (p10 (some "a") [1]) (by decide) 1 (by decide)) (by decide)

end Verif.Flow
