import Verif.Model.Params
import Verif.Props.HashDict

set_option linter.unusedSectionVars false
set_option linter.unusedSimpArgs false
set_option linter.unusedVariables false

namespace Verif.Params

variable {γ φ ν : Type} [DecidableEq γ] [DecidableEq φ]

/-! ## C63: allowed keys -/

/-- Only a class with fields of its own ever blocks its subclasses: every entry of the cache is the field list of its class. -/
theorem history_entries (C : Classes γ φ) (uses : List γ) : ∀ c ks, (history C uses).get? c = some ks → ks = C.fields c := by
  have gen : ∀ (us : List γ) (cache : Cache γ φ), (∀ c ks, cache.get? c = some ks → ks = C.fields c) →
      ∀ c ks, (us.foldl (fun cache c => (allowed C cache c).2) cache).get? c = some ks → ks = C.fields c := by
    intro us
    induction us with
    | nil => intro cache h; exact h
    | cons u us ih =>
      intro cache h
      refine ih _ ?_
      intro c ks
      simp only [allowed]
      split
      · rw [Dict.get?_set]
        split
        · rename_i hc; intro e; injection e with e; rw [← e]; first | rw [hc] | rw [← hc]
        · exact h c ks
      · exact h c ks
  exact gen uses [] (by simp)

theorem lookup_of_none {cache : Cache γ φ} : ∀ (l : List γ), (∀ c ∈ l, cache.get? c = none ∨ cache.get? c = some []) → lookup cache l = []
  | [], _ => rfl
  | c :: cs, h => by
    simp only [lookup]
    rcases h c (by simp) with e | e <;> rw [e]
    exact lookup_of_none cs (fun c' hc' => h c' (by simp [hc']))

/-- After any history, a class whose proper ancestors declare no fields accepts exactly its own fields.
The full claim has no condition on the ancestors. -/
theorem C63_direct_partial (C : Classes γ φ) (uses : List γ) (c : γ) (anc : List γ) (hm : C.mro c = c :: anc)
    (ha : ∀ c' ∈ anc, C.fields c' = []) : (allowed C (history C uses) c).1 = C.fields c := by
  have he := history_entries C uses
  have hanc : lookup (history C uses) anc = [] := by
    apply lookup_of_none
    intro c' hc'
    cases h : (history C uses).get? c' with
    | none => exact Or.inl rfl
    | some ks => right; rw [he c' ks h, ha c' hc']
  simp only [allowed, hm, lookup]
  cases h : (history C uses).get? c with
  | some ks =>
    have := he c ks h
    subst this
    cases hf : C.fields c <;> simp
  | none => simp [hanc]

/-- In every history the answer is the field list of the class or of one of its ancestors. -/
theorem C63_some_ancestor (C : Classes γ φ) (uses : List γ) (c : γ) (hc : c ∈ C.mro c) :
    ∃ c' ∈ C.mro c, (allowed C (history C uses) c).1 = C.fields c' := by
  have he := history_entries C uses
  have gen : ∀ l : List γ, (lookup (history C uses) l).isEmpty = true ∨ ∃ c' ∈ l, lookup (history C uses) l = C.fields c' := by
    intro l
    induction l with
    | nil => exact Or.inl rfl
    | cons a l ih =>
      simp only [lookup]
      cases h : (history C uses).get? a with
      | some ks => exact Or.inr ⟨a, by simp, he a ks h⟩
      | none =>
        rcases ih with ih | ⟨c', hc', e⟩
        · exact Or.inl ih
        · exact Or.inr ⟨c', by simp [hc'], e⟩
  simp only [allowed]
  split
  · exact ⟨c, hc, rfl⟩
  · rename_i hne
    rcases gen (C.mro c) with h | ⟨c', hc', e⟩
    · exact absurd h hne
    · exact ⟨c', hc', e⟩

/-- Construction accepts exactly the allowed keys (no required fields). -/
theorem C63_init (cfg : Cfg ν) (hs : cfg.strict = false) (keys : List φ) (kw : Attrs φ ν) :
    (∃ a, init cfg keys kw = .ok a) ↔ ∀ k ∈ kw.keys, k ∈ keys := by
  simp only [init, hs, Bool.false_and, Bool.false_eq_true, if_false]
  by_cases h : kw.keys.all (fun k => decide (k ∈ keys)) = true
  · rw [if_pos h]; simp only [List.all_eq_true, decide_eq_true_eq] at h
    exact ⟨fun _ => h, fun _ => ⟨_, rfl⟩⟩
  · rw [if_neg h]; simp only [List.all_eq_true, decide_eq_true_eq] at h
    exact ⟨fun ⟨a, e⟩ => (by cases e), fun h' => absurd h' h⟩

/-- Classes 0 (`Params`), 1 (`A`, field `x`), 2 (`B(A)`, fields `x`, `y`), 3 (`D(Params)`, field `z`). -/
def demoClasses : Classes Nat String where
  mro := fun c => if c = 0 then [0] else if c = 2 then [2, 1, 0] else [c, 0]
  fields := fun c => if c = 1 then ["x"] else if c = 2 then ["x", "y"] else if c = 3 then ["z"] else []

/-- Once `A` was used, `B` no longer accepts its own field `y`. -/
theorem C63_inherited_cache_violation :
    (allowed demoClasses (history demoClasses [1]) 2).1 = ["x"] ∧ (allowed demoClasses (history demoClasses []) 2).1 = ["x", "y"] := by
  decide

example : (allowed demoClasses (history demoClasses [1, 2, 0, 3, 1]) 3).1 = ["z"] := by decide
example : demoClasses.mro 3 = 3 :: [0] ∧ ∀ c' ∈ [0], demoClasses.fields c' = [] := by decide

/-! ## C121, C122: `with_updates` -/

/-- The value of a field as `to_dict` shows it: present if set and no sentinel. -/
def value (cfg : Cfg ν) (keys : List φ) (a : Attrs φ ν) (k : φ) : Option ν :=
  if k ∈ keys then (a.get? k).bind (fun v => if cfg.sentinel v then none else some (cfg.norm v)) else none

theorem get?_filterMap_entry (cfg : Cfg ν) (a : Attrs φ ν) : ∀ (keys : List φ) (k : φ),
    Dict.get? (keys.filterMap (dictEntry cfg a)) k = value cfg keys a k
  | [], k => by simp [value]
  | k' :: ks, k => by
    have ih := get?_filterMap_entry cfg a ks k
    simp only [List.filterMap_cons]
    by_cases hk : k' = k
    · subst hk
      simp only [value, List.mem_cons, true_or, if_true]
      cases h : a.get? k' with
      | none =>
        simp only [dictEntry, h, Option.bind_none, ih, value]
        split <;> rfl
      | some v =>
        simp only [dictEntry, h, Option.bind_some]
        by_cases hs : cfg.sentinel v = true
        · simp only [if_pos hs, ih, value, h, Option.bind_some, ite_self]
        · simp only [if_neg hs, Dict.get?_cons, if_true]
    · have hv : value cfg (k' :: ks) a k = value cfg ks a k := by
        simp only [value, List.mem_cons, Ne.symm hk, false_or]
      rw [hv, ← ih]
      cases hd : dictEntry cfg a k' with
      | none => rfl
      | some e =>
        have he : e.1 = k' := by
          simp only [dictEntry] at hd
          split at hd
          · split at hd
            · cases hd
            · injection hd with hd; rw [← hd]
          · cases hd
        obtain ⟨e1, e2⟩ := e
        simp only at he
        subst he
        show Dict.get? ((e1, e2) :: _) k = _
        rw [Dict.get?_cons, if_neg hk]

theorem get?_toDict (cfg : Cfg ν) (keys : List φ) (a : Attrs φ ν) (k : φ) : (toDict cfg keys a).get? k = value cfg keys a k := by
  simp only [toDict]
  have : keys.filter (fun k => !decide (k ∈ ([] : List φ))) = keys := by simp
  rw [this]
  exact get?_filterMap_entry cfg a keys k

theorem toDict_wf (cfg : Cfg ν) (keys : List φ) (hk : keys.Nodup) (a : Attrs φ ν) : (toDict cfg keys a).WF := by
  have hf : (keys.filter (fun k => !decide (k ∈ ([] : List φ)))) = keys := by simp
  simp only [toDict, hf, Dict.WF, Dict.keys]
  have : ((keys.filterMap (dictEntry cfg a)).map Prod.fst).Sublist keys := by
    clear hk hf
    induction keys with
    | nil => simp
    | cons k ks ih =>
      simp only [List.filterMap_cons]
      cases h : dictEntry cfg a k with
      | none => exact ih.cons _
      | some e =>
        have : e.1 = k := by
          simp only [dictEntry] at h
          split at h
          · split at h
            · cases h
            · injection h with h; rw [← h]
          · cases h
        simp only [List.map_cons, this]
        exact ih.cons_cons k
  exact List.Nodup.sublist this hk

theorem get?_prefill (cfg : Cfg ν) : ∀ (keys : List φ) (a : Attrs φ ν) (k : φ),
    (prefill cfg keys a).get? k = a.get? k ∨ (undefinedAttr cfg a k = true ∧ k ∈ keys ∧ (prefill cfg keys a).get? k = some cfg.unset)
  | [], a, k => Or.inl rfl
  | k' :: ks, a, k => by
    simp only [prefill]
    split
    · rename_i hp
      simp only [Bool.and_eq_true] at hp
      rcases get?_prefill cfg ks (a.set k' cfg.unset) k with h | ⟨h1, h2, h3⟩
      · rw [h, Dict.get?_set]
        by_cases hk : k' = k
        · subst hk
          exact Or.inr ⟨hp.2, by simp, by simp⟩
        · rw [if_neg (by first | exact hk | exact Ne.symm hk)]; exact Or.inl rfl
      · by_cases hk : k' = k
        · subst hk; exact Or.inr ⟨hp.2, by simp, h3⟩
        · refine Or.inr ⟨?_, by simp [h2], h3⟩
          simp only [undefinedAttr, Dict.get?_set] at h1 ⊢
          rw [if_neg (by first | exact hk | exact Ne.symm hk)] at h1
          exact h1
    · rcases get?_prefill cfg ks a k with h | ⟨h1, h2, h3⟩
      · exact Or.inl h
      · exact Or.inr ⟨h1, by simp [h2], h3⟩

/-- Prefilling does not change what `to_dict` shows. -/
theorem value_prefill (cfg : Cfg ν) (hu : cfg.sentinel cfg.unset = true) (hund : ∀ v, cfg.undefined v = true → cfg.sentinel v = true)
    (keys ks : List φ) (a : Attrs φ ν) (k : φ) : value cfg keys (prefill cfg ks a) k = value cfg keys a k := by
  simp only [value]
  by_cases hk : k ∈ keys
  · rw [if_pos hk, if_pos hk]
    rcases get?_prefill cfg ks a k with h | ⟨h1, _, h3⟩
    · rw [h]
    · rw [h3]
      simp only [undefinedAttr] at h1
      cases h : a.get? k with
      | none => simp [hu]
      | some v => rw [h] at h1; simp [hu, hund v h1]
  · rw [if_neg hk, if_neg hk]

/-- After `with_updates(**kw)`, `to_dict` shows the new value of every updated field and the old value of every other one. -/
theorem C121_with_updates (cfg : Cfg ν) (hu : cfg.sentinel cfg.unset = true) (hund : ∀ v, cfg.undefined v = true → cfg.sentinel v = true)
    (hn : ∀ v, cfg.sentinel v = false → cfg.sentinel (cfg.norm v) = false ∧ cfg.norm (cfg.norm v) = cfg.norm v)
    (keys : List φ) (hk : keys.Nodup) (a : Attrs φ ν) (kw : Dict φ ν) (hkw : kw.WF) {a' : Attrs φ ν}
    (h : withUpdates cfg keys a kw = .ok a') (k : φ) :
    (toDict cfg keys a').get? k = if k ∈ kw.keys then value cfg keys kw k else (toDict cfg keys a).get? k := by
  simp only [withUpdates, init] at h
  split at h
  · split at h
    · cases h
    · injection h with h
      subst h
      rw [get?_toDict, value_prefill cfg hu hund, get?_toDict]
      by_cases hkk : k ∈ keys
      · simp only [value, if_pos hkk]
        rw [Dict.get?_update hkw, get?_toDict]
        by_cases hm : k ∈ kw.keys
        · rw [if_pos hm]
          have hs := (Dict.get?_isSome_iff kw k).2 hm
          obtain ⟨v, hv⟩ := Option.isSome_iff_exists.1 hs
          simp [hv]
        · rw [if_neg hm, (Dict.get?_eq_none_iff kw k).2 hm]
          simp only [value, if_pos hkk, Option.none_or]
          cases ha : a.get? k with
          | none => rfl
          | some v =>
            simp only [Option.bind_some]
            by_cases hs : cfg.sentinel v = true
            · simp [hs]
            · have hs' := Bool.eq_false_iff.2 hs
              rw [if_neg hs]
              obtain ⟨h1, h2⟩ := hn v hs'
              simp [h1, h2]
      · simp [value, hkk]
  · cases h

/-- The original is not touched: `with_updates` builds a new object.  Updating with an unknown key is rejected. -/
theorem C121_unknown_key (cfg : Cfg ν) (keys : List φ) (a : Attrs φ ν) (kw : Dict φ ν) (k : φ) (hk : k ∈ kw.keys) (hn : k ∉ keys) :
    withUpdates cfg keys a kw = .error .valueError := by
  simp only [withUpdates, init]
  rw [if_neg]
  intro h
  simp only [List.all_eq_true, decide_eq_true_eq] at h
  exact hn (h k ((Dict.mem_keys_update _ _ _).2 (Or.inr hk)))

/-- Values for the examples: `Unset`, `Undefined`, `None`, numbers, enum members carrying a number. -/
inductive PV where
  | unset | undefined | none | num (n : Int) | member (n : Int)
  deriving DecidableEq, Repr

def demoNorm (useEnum : Bool) : PV → PV
  | .member n => if useEnum then .num n else .member n
  | v => v

def demoSent (noneIs : Bool) : PV → Bool
  | .unset => true
  | .undefined => true
  | .none => noneIs
  | _ => false

def demoUndef : PV → Bool
  | .undefined => true
  | _ => false

def demoCfg (noneIs useEnum : Bool) : Cfg PV :=
  { sentinel := demoSent noneIs, undefined := demoUndef, unset := .unset, norm := demoNorm useEnum, strict := false, prefill := true }

example (b c : Bool) : (demoCfg b c).sentinel (demoCfg b c).unset = true := rfl
example (b c : Bool) : ∀ v, (demoCfg b c).sentinel v = false →
    (demoCfg b c).sentinel ((demoCfg b c).norm v) = false ∧ (demoCfg b c).norm ((demoCfg b c).norm v) = (demoCfg b c).norm v := by
  intro v hv
  cases v <;> cases c <;> simp_all [demoCfg, demoSent, demoNorm]

example : withUpdates (demoCfg false false) ["x", "y", "z"] [("x", .num 1), ("y", .num 2)] [("y", .num 5)]
    = .ok [("x", .num 1), ("y", .num 5), ("z", .unset)] := by decide

/-- Attributes not mentioned keep their value, when nothing is normalised and only `Unset`/`Undefined` are sentinels (then a sentinel attribute reads `Unset`).
The full claim covers every configuration. -/
theorem C122_attributes_partial (cfg : Cfg ν) (hn : ∀ v, cfg.norm v = v) (keys : List φ) (hk : keys.Nodup) (a : Attrs φ ν) (kw : Dict φ ν) (hkw : kw.WF)
    {a' : Attrs φ ν} (h : withUpdates cfg keys a kw = .ok a') {k : φ} (hkk : k ∈ keys) (hm : k ∉ kw.keys) {v : ν} (hv : a.get? k = some v)
    (hs : cfg.sentinel v = false) (hund : ∀ v, cfg.undefined v = true → cfg.sentinel v = true) : a'.get? k = some v := by
  simp only [withUpdates, init] at h
  split at h
  · split at h
    · cases h
    · injection h with h
      subst h
      have hg : ((toDict cfg keys a).update kw).get? k = some v := by
        rw [Dict.get?_update hkw, (Dict.get?_eq_none_iff kw k).2 hm, get?_toDict]
        simp [value, hkk, hv, hs, hn]
      rcases get?_prefill cfg keys ((toDict cfg keys a).update kw) k with e | ⟨e1, _, _⟩
      · rw [e, hg]
      · simp only [undefinedAttr, hg] at e1
        rw [hund v e1] at hs; cases hs
  · cases h

/-- With `use_enum_values`, updating `y` turns the enum member in `x` into its plain value. -/
theorem C122_enum_violation :
    withUpdates (demoCfg false true) ["x", "y"] [("x", .member 3), ("y", .num 2)] [("y", .num 5)]
      = .ok [("x", .num 3), ("y", .num 5)] := by decide

/-! ## C62: equality -/

open HashDict

/-- Related options. -/
def OptRel {τ : Type} (R : τ → τ → Prop) : Option τ → Option τ → Prop
  | some a, some b => R a b
  | none, none => True
  | _, _ => False

variable {α β σ : Type} [DecidableEq α]

/-- Same fields, with equal values. -/
def SameValues (d d' : Dict α (Data α)) : Prop := ∀ k, OptRel (Equal (· = ·) (· = ·)) (d.get? k) (d'.get? k)

theorem equal_to_front : ∀ (d : Dict α (Data α)) (hd : d.WF) (k : α) (v : Data α), d.get? k = some v →
    Equal (· = ·) (· = ·) (dictData d) (.dcons k v (dictData (d.del k)))
  | [], _, k, v, h => by simp at h
  | (k', v') :: d, hd, k, v, h => by
    simp only [Dict.get?_cons] at h
    by_cases hk : k' = k
    · rw [if_pos hk] at h
      injection h with h
      subst hk; subst h
      simp only [Dict.del, if_true, dictData]
      exact .refl _
    · rw [if_neg hk] at h
      simp only [Dict.del, if_neg hk, dictData]
      simp only [Dict.WF, Dict.keys_cons, List.nodup_cons] at hd
      exact .trans (.dcons rfl (.refl _) (equal_to_front d hd.2 k v h)) (.dswap hk)

theorem equal_of_sameValues : ∀ (d d' : Dict α (Data α)), d.WF → d'.WF → SameValues d d' →
    Equal (· = ·) (· = ·) (dictData d) (dictData d')
  | [], d', _, _, h => by
    cases d' with
    | nil => exact .refl _
    | cons e d' =>
      have := h e.1
      rw [show Dict.get? (e :: d') e.1 = some e.2 from by
        obtain ⟨e1, e2⟩ := e; simp [Dict.get?_cons]] at this
      exact this.elim
  | (k, v) :: d, d', hd, hd', h => by
    have hk := h k
    simp only [Dict.get?_cons, if_true] at hk
    simp only [Dict.WF, Dict.keys_cons, List.nodup_cons] at hd
    cases hg : Dict.get? d' k with
    | none => rw [hg] at hk; exact hk.elim
    | some v' =>
      rw [hg] at hk
      have hrec := equal_of_sameValues d (d'.del k) hd.2 (Dict.del_wf hd' k) (by
        intro k2
        have h2 := h k2
        rw [Dict.get?_del hd']
        by_cases e : k = k2
        · subst e
          rw [if_pos rfl, (Dict.get?_eq_none_iff d k).2 hd.1]; trivial
        · rw [if_neg (by first | exact e | exact Ne.symm e)]
          simp only [Dict.get?_cons, if_neg e] at h2; exact h2)
      exact .trans (.dcons rfl hk hrec) (.symm (equal_to_front d' hd' k v' hg))

/-- Look-up in a chain of entries. -/
def lookupD : Data α → α → Option (Data α)
  | .dcons k v t, k' => if k = k' then some v else lookupD t k'
  | _, _ => none

theorem lookupD_dictData : ∀ (d : Dict α (Data α)) (k : α), lookupD (dictData d) k = d.get? k
  | [], k => rfl
  | (k', v) :: d, k => by simp only [dictData, lookupD, Dict.get?_cons, lookupD_dictData d k]

theorem OptRel.refl' {τ : Type} {R : τ → τ → Prop} (h : ∀ a, R a a) (o : Option τ) : OptRel R o o := by
  cases o with
  | none => trivial
  | some a => exact h a

theorem lookupD_equal {x y : Data α} (h : Equal (· = ·) (· = ·) x y) (k : α) : OptRel (Equal (· = ·) (· = ·)) (lookupD x k) (lookupD y k) := by
  have rfl' := OptRel.refl' (R := Equal (α := α) (· = ·) (· = ·)) .refl
  induction h with
  | refl x => exact rfl' _
  | symm _ ih =>
    revert ih
    cases lookupD _ k <;> cases lookupD _ k <;> simp only [OptRel] <;> first | exact id | exact .symm
  | trans _ _ ih1 ih2 =>
    revert ih1 ih2
    cases lookupD _ k <;> cases lookupD _ k <;> cases lookupD _ k <;> simp only [OptRel] <;> intros <;> first | trivial | contradiction | (apply Equal.trans <;> assumption)
  | atom _ => trivial
  | coll _ _ => trivial
  | lcons _ _ _ _ => trivial
  | dcons hk hv ht ih1 ih2 =>
    subst hk
    simp only [lookupD]
    split
    · exact hv
    · exact ih2
  | dswap hne =>
    rename_i k1 k2 v1 v2 t
    simp only [lookupD]
    by_cases h1 : k1 = k
    · have h2 : ¬ k2 = k := fun e => hne (h1.trans e.symm)
      rw [if_pos h1, if_neg h2, if_pos h1]; exact rfl' _
    · rw [if_neg h1, if_neg h1]; exact rfl' _
  | scons _ _ => trivial
  | sswap => trivial

/-- What `to_dict` shows of two objects agrees. -/
def SameFields (cfg cfg' : Cfg (Data α)) (keys keys' : List α) (a a' : Attrs α (Data α)) : Prop :=
  ∀ k, OptRel (Equal (· = ·) (· = ·)) (value cfg keys a k) (value cfg' keys' a' k)

/-- Objects with the same field values compare equal (under the provisos of C61 on set elements and on `str`). -/
theorem C62_same_partial (O : Ops α β σ) (hash : Rep β σ → Int) (hs : IsOrder O.strLe) (hle : IsOrder O.le) (hty : IsOrder O.typeLe)
    (hinj : ∀ k k', O.str k = O.str k' → k = k') (cfg cfg' : Cfg (Data α)) (keys keys' : List α) (hk : keys.Nodup) (hk' : keys'.Nodup)
    (a a' : Attrs α (Data α)) (h : SameFields cfg cfg' keys keys' a a') : paramsEq O hash cfg cfg' keys keys' a a' = true := by
  refine decide_eq_true ?_
  refine C61_order_insensitive O hash (· = ·) (· = ·) hs hle hty hinj (fun _ _ e => by rw [e]) (fun _ _ e => by rw [e]) ?_
  refine .coll (equal_of_sameValues _ _ (toDict_wf cfg keys hk a) (toDict_wf cfg' keys' hk' a') ?_)
  intro k
  rw [get?_toDict, get?_toDict]
  exact h k

theorem wf_dictData : ∀ d : Dict α (Data α), (∀ kv ∈ d, wf .value kv.2) → wf .entries (dictData d)
  | [], _ => trivial
  | (k, v) :: d, h => ⟨h (k, v) (by simp), wf_dictData d (fun kv hkv => h kv (by simp [hkv]))⟩

/-- Objects that compare equal have the same field values, if `hash` separates their representations.  The full claim has no such proviso. -/
theorem C62_equal_partial (O : Ops α β σ) (hash : Rep β σ → Int) (hs : IsOrder O.strLe)
    (hprim : ∀ a b, O.prim a = O.prim b → a = b) (hinj : ∀ k k', O.str k = O.str k' → k = k')
    (cfg cfg' : Cfg (Data α)) (keys keys' : List α) (a a' : Attrs α (Data α))
    (hw : ∀ kv ∈ toDict cfg keys a, wf .value kv.2) (hw' : ∀ kv ∈ toDict cfg' keys' a', wf .value kv.2)
    (hh : ∀ r r', r = rep O (.coll .dict (dictData (toDict cfg keys a))) → r' = rep O (.coll .dict (dictData (toDict cfg' keys' a'))) →
      hash r = hash r' → r = r')
    (h : paramsEq O hash cfg cfg' keys keys' a a' = true) : SameFields cfg cfg' keys keys' a a' := by
  replace h := of_decide_eq_true h
  have hr : rep O (.coll .dict (dictData (toDict cfg keys a))) = rep O (.coll .dict (dictData (toDict cfg' keys' a'))) := hh _ _ rfl rfl h
  simp only [rep, Rep.node.injEq, true_and] at hr
  have hx := wf_dictData _ hw
  have hy := wf_dictData _ hw'
  rw [rep_canon O _ .entries (by decide) hx, rep_canon O _ .entries (by decide) hy] at hr
  have hc := rep0_inj O hprim hinj _ _ .entries (wf_canon O _ _ hx) (wf_canon O _ _ hy) hr
  have e1 := equal_canon (atomEq := (· = ·)) (keyEq := (· = ·)) O hs (fun _ => rfl) _ .entries hx
  have e2 := equal_canon (atomEq := (· = ·)) (keyEq := (· = ·)) O hs (fun _ => rfl) _ .entries hy
  rw [hc] at e1
  intro k
  have := lookupD_equal (e1.trans e2.symm) k
  rw [lookupD_dictData, lookupD_dictData, get?_toDict, get?_toDict] at this
  exact this

/-- Integers as atoms; field names are (non-negative) integers too. -/
def intOps : Ops Int Int Int :=
  { prim := id, str := id, strLe := fun a b => decide (a ≤ b), cmp := fun _ _ => true, le := fun a b => decide (a ≤ b), typeLe := fun a b => decide (a ≤ b) }

theorem intOps_order : IsOrder (fun a b : Int => decide (a ≤ b)) :=
  ⟨fun a b c h h' => by simp only [decide_eq_true_eq] at *; omega, fun a b => by simp only [decide_eq_true_eq]; omega,
   fun a b h h' => by simp only [decide_eq_true_eq] at *; omega⟩

/-- CPython's hash of small integers: `hash(-1) == hash(-2) == -2`. -/
def pyIntHash (n : Int) : Int := if n = -1 then -2 else n

/-- A tuple hash sees its elements only through their hashes. -/
def hashLeaves : Rep Int Int → Rep Int Int
  | .leaf n => .leaf (pyIntHash n)
  | .node m i => .node m (hashLeaves i)
  | .nil => .nil
  | .cons h t => .cons (hashLeaves h) (hashLeaves t)
  | .kcons k v t => .kcons k (hashLeaves v) (hashLeaves t)

def plainCfg : Cfg (Data Int) :=
  { sentinel := fun v => decide (v = .nil), undefined := fun _ => false, unset := .nil, norm := id, strict := false, prefill := true }

/-- `P(x=-1) == P(x=-2)`, however tuples are hashed from the hashes of their elements. -/
theorem C62_collision_violation (mix : Rep Int Int → Int) :
    paramsEq intOps (fun r => mix (hashLeaves r)) plainCfg plainCfg [0] [0] [(0, .atom (-1))] [(0, .atom (-2))] = true := by
  have : hashLeaves (rep intOps (.coll .dict (dictData (toDict plainCfg [0] [(0, .atom (-1))]))))
      = hashLeaves (rep intOps (.coll .dict (dictData (toDict plainCfg [0] [(0, .atom (-2))])))) := by decide
  exact decide_eq_true (congrArg mix this)

example : toDict plainCfg [0, 1, 2] [(2, .atom 7), (0, .atom (-1)), (1, .nil)] = [(0, .atom (-1)), (2, .atom 7)] := by decide

/-- The `__eq__` generated by `@dataclass` for objects of one class, built by the constructor: equal exactly when the fields shown by `to_dict` are,
if `Unset` and `Undefined` are the only sentinels and nothing is normalised.  The full claim covers every configuration. -/
theorem C62_generated_partial (cfg : Cfg ν) (veq : ν → ν → Bool) (hn : ∀ v, cfg.norm v = v) (hp : cfg.prefill = true)
    (hu : cfg.sentinel cfg.unset = true) (hsent : ∀ v, cfg.sentinel v = true → v = cfg.unset ∨ cfg.undefined v = true)
    (hund : cfg.undefined cfg.unset = false)
    (heu : veq cfg.unset cfg.unset = true) (hne : ∀ v, cfg.sentinel v = false → veq cfg.unset v = false ∧ veq v cfg.unset = false)
    (keys : List φ) (kw kw' a a' : Attrs φ ν) (h : init cfg keys kw = .ok a) (h' : init cfg keys kw' = .ok a') :
    generatedEq veq keys a a' = some true ↔ ∀ k ∈ keys, OptRel (fun v w => veq v w = true) (value cfg keys a k) (value cfg keys a' k) := by
  have full : ∀ (kw a : Attrs φ ν), init cfg keys kw = .ok a → ∀ k ∈ keys, ∃ v, a.get? k = some v ∧ (cfg.sentinel v = true → v = cfg.unset) := by
    intro kw a h k hk
    simp only [init] at h
    split at h
    · split at h
      · cases h
      · injection h with h
        subst h
        have hset : ∀ (ks : List φ) (b : Attrs φ ν), (k ∈ ks ∨ undefinedAttr cfg b k = false) → undefinedAttr cfg (prefill cfg ks b) k = false := by
          intro ks
          induction ks with
          | nil => intro b hb; exact hb.resolve_left (by simp)
          | cons k2 ks ih =>
            intro b hb
            simp only [prefill]
            split
            · refine ih _ ?_
              by_cases e : k2 = k
              · right; subst e; simp [undefinedAttr, Dict.get?_set, hund]
              · rcases hb with hb | hb
                · left; exact (List.mem_cons.1 hb).resolve_left (Ne.symm e)
                · right
                  simp only [undefinedAttr, Dict.get?_set] at hb ⊢
                  rw [if_neg (by first | exact e | exact Ne.symm e)]; exact hb
            · rename_i hc
              refine ih _ ?_
              by_cases e : k2 = k
              · right; subst e; simpa [hp] using hc
              · rcases hb with hb | hb
                · left; exact (List.mem_cons.1 hb).resolve_left (Ne.symm e)
                · right; exact hb
        have hd := hset keys kw (Or.inl hk)
        simp only [undefinedAttr] at hd
        cases hg : (prefill cfg keys kw).get? k with
        | none => rw [hg] at hd; cases hd
        | some v =>
          refine ⟨v, rfl, fun hs => ?_⟩
          rcases hsent v hs with e | e
          · exact e
          · rw [hg] at hd; simp [e] at hd
    · cases h
  have fa := full kw a h
  have fa' := full kw' a' h'
  have gen : ∀ ks : List φ, (∀ k ∈ ks, k ∈ keys) →
      (generatedEq veq ks a a' = some true ↔ ∀ k ∈ ks, OptRel (fun v w => veq v w = true) (value cfg keys a k) (value cfg keys a' k))
        ∧ (generatedEq veq ks a a').isSome := by
    intro ks
    induction ks with
    | nil => intro _; simp [generatedEq]
    | cons k ks ih =>
      intro hsub
      obtain ⟨ih1, ih2⟩ := ih (fun k' hk' => hsub k' (by simp [hk']))
      have hk := hsub k (by simp)
      obtain ⟨v, hv, hvs⟩ := fa k hk
      obtain ⟨v', hv', hvs'⟩ := fa' k hk
      obtain ⟨r, hr⟩ := Option.isSome_iff_exists.1 ih2
      have hrel : OptRel (fun v w => veq v w = true) (value cfg keys a k) (value cfg keys a' k) ↔ veq v v' = true := by
        simp only [value, if_pos hk, hv, hv', Option.bind_some, hn]
        cases hs : cfg.sentinel v with
        | true =>
          have e := hvs hs
          subst e
          cases hs' : cfg.sentinel v' with
          | true =>
            have e := hvs' hs'
            subst e
            simp [OptRel, heu]
          | false => simp [OptRel, (hne v' hs').1]
        | false =>
          cases hs' : cfg.sentinel v' with
          | true =>
            have e := hvs' hs'
            subst e
            simp [OptRel, (hne v hs).2]
          | false => simp [OptRel]
      simp only [generatedEq, hv, hv', hr, List.mem_cons, forall_eq_or_imp, hrel]
      refine ⟨?_, rfl⟩
      rw [← ih1, hr]
      simp
  exact (gen keys (fun _ hk => hk)).1

/-- With `none_as_sentinel`, `P(x=None)` and `P()` show the same fields but the generated `__eq__` tells them apart. -/
theorem C62_none_violation :
    init (demoCfg true false) ["x"] [("x", .none)] = .ok [("x", .none)] ∧ init (demoCfg true false) ["x"] [] = .ok [("x", .unset)] ∧
    value (demoCfg true false) ["x"] [("x", .none)] "x" = value (demoCfg true false) ["x"] [("x", .unset)] "x" ∧
    generatedEq (fun a b => decide (a = b)) ["x"] [("x", PV.none)] [("x", .unset)] = some false := by decide

example : generatedEq (fun a b => decide (a = b)) ["x", "y"] [("x", PV.num 1), ("y", .unset)] [("y", .unset), ("x", PV.num 1)] = some true := by decide

/-! ## C66: `Meta` -/

/-- Equal `Meta` objects hash equally when both values are callable, or neither is and equal values agree on being hashable, on their hash and,
when unhashable, on their text.  The full claim has no such proviso. -/
theorem C66_hash_partial (V : Values ν) (strHash : List Char → Int) (pairHash : φ × Int → Int) (m m' : φ × ν)
    (hc : V.callable m.2 = V.callable m'.2)
    (hh : V.callable m.2 = false → V.eq m.2 m'.2 = true → V.hash m.2 = V.hash m'.2 ∧ (V.hash m.2 = none → V.str m.2 = V.str m'.2))
    (h : metaEq V m m' = true) : metaHash V strHash pairHash m = metaHash V strHash pairHash m' := by
  simp only [metaEq] at h
  split at h
  · cases h
  · rename_i hk
    have hk' : m.1 = m'.1 := Classical.not_not.1 hk
    simp only [metaHash, metaHashed]
    cases hcm : V.callable m.2 with
    | true =>
      have hcm' := hc ▸ hcm
      rw [hcm, hcm'] at h
      simp only [Bool.and_self, if_true, decide_eq_true_eq] at h
      rw [hcm']
      simp only [if_true, hk', h]
    | false =>
      have hcm' := hc ▸ hcm
      rw [hcm] at h
      simp only [Bool.false_and, Bool.false_eq_true, if_false] at h
      obtain ⟨h1, h2⟩ := hh hcm h
      rw [hcm']
      simp only [Bool.false_eq_true, if_false, ← h1, hk']
      cases hv : V.hash m.2 with
      | some x => rfl
      | none => simp only [h2 hv]

/-- Values for the counterexample: the lists `[1]` and `[1.0]`, equal and unhashable, printed differently. -/
inductive LV where
  | listInt | listFloat | five
  deriving DecidableEq

def demoValues : Values LV where
  callable := fun _ => false
  id := fun v => match v with | .listInt => 1 | .listFloat => 2 | .five => 3
  hash := fun v => match v with | .five => some 5 | _ => none
  str := fun v => match v with | .listInt => "[1]".toList | .listFloat => "[1.0]".toList | .five => ['5']
  eq := fun a b => decide (a = b) || (decide (a ≠ .five) && decide (b ≠ .five))

/-- `Meta("k", [1]) == Meta("k", [1.0])`, but different values enter the two hashes. -/
theorem C66_lists_violation : metaEq demoValues ("k", LV.listInt) ("k", LV.listFloat) = true ∧
    ∃ strHash : List Char → Int, metaHashed demoValues strHash ("k", LV.listInt) ≠ metaHashed demoValues strHash ("k", LV.listFloat) :=
  ⟨by decide, fun s => s.length, by decide⟩

end Verif.Params
