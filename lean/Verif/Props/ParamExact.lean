import Verif.Props.ParamCall

/-!
# Exact behaviour of parameter objects (C63, C161, C163, C164, C165)

What construction, calls, hashing and `with_updates` do in every case, also where the property asked for is false.
-/

set_option linter.unusedSectionVars false
set_option linter.unusedSimpArgs false
set_option linter.unusedVariables false

namespace Verif.ParamCall

open Verif.Params

variable {φ ν : Type} [DecidableEq φ]

/-! ## Specification vocabulary -/

/-- No value, or the value `Undefined`. -/
def NoValue (cfg : Cfg ν) (o : Option ν) : Prop := ∀ v, o = some v → cfg.undefined v = true

/-- Counts as missing in strict mode: no value where `Unset` is a sentinel, or a sentinel. -/
def Missing (cfg : Cfg ν) (o : Option ν) : Prop := cfg.sentinel (o.getD cfg.unset) = true

/-- `o'` is the attribute after validation, if it was `o` before: `Unset` in place of no value, if the class prefills. -/
def Kept (cfg : Cfg ν) (o o' : Option ν) : Prop :=
  (cfg.prefill = true ∧ NoValue cfg o → o' = some cfg.unset) ∧ (¬ (cfg.prefill = true ∧ NoValue cfg o) → o' = o)

/-- What a class attribute of the declared default gives: the plain default of a class without slots. -/
def visible (slots : Bool) (d : Default ν) : Option ν :=
  match slots, d with
  | false, .plain v => some v
  | _, _ => none

/-! ## Lemmas -/

theorem undefinedAttr_iff (cfg : Cfg ν) (a : Attrs φ ν) (k : φ) : undefinedAttr cfg a k = true ↔ NoValue cfg (a.get? k) := by
  unfold undefinedAttr NoValue
  cases a.get? k <;> simp

theorem missingAttr_iff (cfg : Cfg ν) (a : Attrs φ ν) (k : φ) : missingAttr cfg a k = true ↔ Missing cfg (a.get? k) := by
  unfold missingAttr Missing
  cases a.get? k <;> simp

theorem prefill_mem (cfg : Cfg ν) (hp : cfg.prefill = true) : ∀ (ks : List φ) (b : Attrs φ ν) (k : φ), k ∈ ks → NoValue cfg (b.get? k) →
    (prefill cfg ks b).get? k = some cfg.unset
  | [], b, k, hk, _ => by simp at hk
  | x :: ks, b, k, hk, hn => by
    simp only [prefill, hp, Bool.true_and]
    by_cases hx : x = k
    · subst hx
      rw [if_pos ((undefinedAttr_iff cfg b x).2 hn)]
      rcases get?_prefill cfg ks (b.set x cfg.unset) x with e | ⟨_, _, e⟩
      · rw [e, Dict.get?_set, if_pos rfl]
      · exact e
    · have hk' : k ∈ ks := by
        rcases List.mem_cons.1 hk with h | h
        · exact absurd h.symm hx
        · exact h
      split
      · refine prefill_mem cfg hp ks _ k hk' ?_
        rw [Dict.get?_set, if_neg (by first | exact hx | exact Ne.symm hx)]; exact hn
      · exact prefill_mem cfg hp ks b k hk' hn

theorem prefill_off (cfg : Cfg ν) (hp : cfg.prefill = false) : ∀ (ks : List φ) (b : Attrs φ ν), prefill cfg ks b = b
  | [], b => rfl
  | x :: ks, b => by simp only [prefill, hp, Bool.false_and, Bool.false_eq_true, if_false]; exact prefill_off cfg hp ks b

theorem prefill_kept (cfg : Cfg ν) (ks : List φ) (b : Attrs φ ν) (k : φ) (hk : k ∈ ks) : Kept cfg (b.get? k) ((prefill cfg ks b).get? k) := by
  refine ⟨fun h => prefill_mem cfg h.1 ks b k hk h.2, fun h => ?_⟩
  by_cases hp : cfg.prefill = true
  · have hn : ¬ NoValue cfg (b.get? k) := fun hn => h ⟨hp, hn⟩
    rcases get?_prefill cfg ks b k with e | ⟨e, _, _⟩
    · exact e
    · exact absurd ((undefinedAttr_iff cfg b k).1 e) hn
  · rw [prefill_off cfg (by simpa using hp)]

/-! ## C63 -/

/-- C63 (exact): construction refuses a name the class does not allow with `ValueError`; else, in strict mode, it
refuses missing parameters with an exception group; else every allowed attribute is the given value, or `Unset` in
place of none if the class prefills. -/
theorem C63_exact (cfg : Cfg ν) (keys : List φ) (kw : Attrs φ ν) :
    ((∃ k ∈ kw.keys, k ∉ keys) → init cfg keys kw = .error .valueError) ∧
    ((∀ k ∈ kw.keys, k ∈ keys) → (cfg.strict = true ∧ ∃ k ∈ keys, Missing cfg (kw.get? k)) → init cfg keys kw = .error .validation) ∧
    ((∀ k ∈ kw.keys, k ∈ keys) → ¬ (cfg.strict = true ∧ ∃ k ∈ keys, Missing cfg (kw.get? k)) →
      ∃ a, init cfg keys kw = .ok a ∧ ∀ k ∈ keys, Kept cfg (kw.get? k) (a.get? k)) := by
  have hall : kw.keys.all (fun k => decide (k ∈ keys)) = true ↔ ∀ k ∈ kw.keys, k ∈ keys := by simp
  have hany : (cfg.strict && keys.any (missingAttr cfg kw)) = true ↔ cfg.strict = true ∧ ∃ k ∈ keys, Missing cfg (kw.get? k) := by
    simp only [Bool.and_eq_true, List.any_eq_true, missingAttr_iff]
  unfold init
  refine ⟨?_, ?_, ?_⟩
  · rintro ⟨k, h1, h2⟩
    rw [if_neg (fun h => h2 (hall.1 h k h1))]
  · intro h1 h2
    rw [if_pos (hall.2 h1), if_pos (hany.2 h2)]
  · intro h1 h2
    rw [if_pos (hall.2 h1), if_neg (fun h => h2 (hany.1 h))]
    exact ⟨_, rfl, fun k hk => prefill_kept cfg keys kw k hk⟩

/-! ## C161 -/

/-- C161 (refused calls): a call through the object raises `TypeError`, and nothing else, exactly if a stored
`kwargs` or `kw` is no mapping, or an argument that is passed has no parameter to go to. -/
theorem C161_refused (cfg : Cfg ν) (asDict : ν → Option (Dict String ν)) (sig : Sig ν) (keys : List String)
    (a : Attrs String ν) (call : Dict String ν) (e : Exc) :
    callObj cfg asDict sig keys a call = .error e ↔ e = .typeError ∧
      ((∃ n v, (n = "kwargs" ∨ n = "kw") ∧ value cfg keys a n = some v ∧ asDict v = none) ∨
       (∃ d, defaultKw cfg asDict keys a = .ok d ∧ sig.varkw = false ∧
          ∃ p, (p ∈ call.keys ∨ p ∈ d.keys) ∧ p ∉ sig.defaults.keys)) := by
  have hent : ∀ n, entriesOf asDict (toDict cfg keys a) n = none ↔ ∃ v, value cfg keys a n = some v ∧ asDict v = none := by
    intro n
    unfold entriesOf
    rw [get?_toDict]
    cases value cfg keys a n <;> simp
  unfold callObj
  cases hd : defaultKw cfg asDict keys a with
  | error e' =>
    have h : e' = .typeError ∧ ∃ n v, (n = "kwargs" ∨ n = "kw") ∧ value cfg keys a n = some v ∧ asDict v = none := by
      unfold defaultKw at hd
      cases h1 : entriesOf asDict (toDict cfg keys a) "kwargs" with
      | none =>
        rw [h1] at hd
        obtain ⟨v, hv, hv'⟩ := (hent _).1 h1
        simp only [Except.error.injEq] at hd
        exact ⟨hd.symm, "kwargs", v, Or.inl rfl, hv, hv'⟩
      | some e1 =>
        cases h2 : entriesOf asDict (toDict cfg keys a) "kw" with
        | none =>
          rw [h1, h2] at hd
          obtain ⟨v, hv, hv'⟩ := (hent _).1 h2
          simp only [Except.error.injEq] at hd
          exact ⟨hd.symm, "kw", v, Or.inr rfl, hv, hv'⟩
        | some e2 => rw [h1, h2] at hd; cases hd
    simp only [Except.error.injEq, reduceCtorEq, false_and, exists_false, or_false]
    constructor
    · rintro rfl; exact h
    · rintro ⟨rfl, _⟩; exact h.1
  | ok d =>
    have hno : ¬ ∃ n v, (n = "kwargs" ∨ n = "kw") ∧ value cfg keys a n = some v ∧ asDict v = none := by
      rintro ⟨n, v, hn, hv, hv'⟩
      have h0 := (hent n).2 ⟨v, hv, hv'⟩
      unfold defaultKw at hd
      rcases hn with rfl | rfl
      · rw [h0] at hd; cases hd
      · rw [h0] at hd; cases h1 : entriesOf asDict (toDict cfg keys a) "kwargs" <;> rw [h1] at hd <;> cases hd
    simp only [bind, hno, false_or, Except.ok.injEq, exists_eq_left']
    have hc : (sig.varkw || (d.update call).keys.all (fun k => decide (k ∈ sig.defaults.keys))) = true ↔
        ¬ (sig.varkw = false ∧ ∃ p, (p ∈ call.keys ∨ p ∈ d.keys) ∧ p ∉ sig.defaults.keys) := by
      simp only [Bool.or_eq_true, List.all_eq_true, decide_eq_true_eq]
      constructor
      · rintro (h | h) ⟨h1, p, hp, hp'⟩
        · rw [h] at h1; cases h1
        · exact hp' (h p ((Dict.mem_keys_update _ _ _).2 hp.symm))
      · intro h
        cases hv : sig.varkw with
        | true => exact Or.inl rfl
        | false =>
          refine Or.inr (fun p hp => ?_)
          rcases Classical.em (p ∈ sig.defaults.keys) with hm | hm
          · exact hm
          · exact absurd ⟨hv, p, ((Dict.mem_keys_update _ _ _).1 hp).symm, hm⟩ h
    by_cases hb : (sig.varkw || (d.update call).keys.all (fun k => decide (k ∈ sig.defaults.keys))) = true
    · rw [if_pos hb]
      simp only [reduceCtorEq, false_iff]
      rintro ⟨_, h⟩
      exact (hc.1 hb) h
    · rw [if_neg hb]
      simp only [Except.error.injEq]
      constructor
      · rintro rfl
        refine ⟨rfl, ?_⟩
        rcases Classical.em (sig.varkw = false ∧ ∃ p, (p ∈ call.keys ∨ p ∈ d.keys) ∧ p ∉ sig.defaults.keys) with h | h
        · exact h
        · exact absurd (hc.2 h) hb
      · rintro ⟨rfl, _⟩; rfl

example : callObj (vCfg true) V.asDict alcallSig alcallKeys [("kw", .num 3)] [] = .error .typeError ∧
    callObj (vCfg true) V.asDict ⟨[("x", .num 1)], false⟩ ["x"] [("x", .num 2)] [("y", .num 2)] = .error .typeError := by decide

/-! ## C163 -/

theorem fields_unique (l : List (String × Default ν)) (hn : (l.map Prod.fst).Nodup) (k : String) (d d' : Default ν)
    (h : (k, d) ∈ l) (h' : (k, d') ∈ l) : d = d' := by
  induction l with
  | nil => simp at h
  | cons q l ih =>
    simp only [List.map_cons, List.nodup_cons] at hn
    rcases List.mem_cons.1 h with hx | hx <;> rcases List.mem_cons.1 h' with hb | hb
    · rw [← hx] at hb; exact ((Prod.mk.inj hb).2).symm
    · rw [← hx] at hn; exact absurd (List.mem_map_of_mem (f := Prod.fst) hb) hn.1
    · rw [← hb] at hn; exact absurd (List.mem_map_of_mem (f := Prod.fst) hx) hn.1
    · exact ih hn.2 hx hb

theorem attrs_visible (c : Decl ν) (hc : c.names.Nodup) (k : String) (d : Default ν) (hkd : (k, d) ∈ c.fields) :
    c.attrs.get? k = visible c.slots d := by
  unfold Decl.attrs
  have hnone : (∀ f ∈ c.fields, f.1 = k → classAttr c.slots f = none) → Dict.get? (c.fields.filterMap (classAttr c.slots)) k = none := by
    intro h
    rw [Dict.get?_eq_none_iff]
    intro hm
    simp only [Dict.keys, List.mem_map, List.mem_filterMap] at hm
    obtain ⟨p, ⟨f, hf', hcf⟩, he⟩ := hm
    have hfp : f.1 = p.1 := by
      unfold classAttr at hcf
      split at hcf
      · split at hcf
        · cases hcf
        · injection hcf with hcf; rw [← hcf]
      · cases hcf
    rw [h f hf' (hfp.trans he)] at hcf
    cases hcf
  cases hs : c.slots with
  | true =>
    rw [hs] at hnone
    have : visible true d = none := rfl
    rw [this]
    refine hnone ?_
    intro f _ _
    unfold classAttr
    split <;> rfl
  | false =>
    rw [hs] at hnone
    cases d with
    | plain v => exact attrs_get? c.fields hc k v hkd
    | required =>
      refine hnone ?_
      rintro ⟨n, d⟩ hf rfl
      rw [fields_unique c.fields hc n d _ hf hkd]; rfl
    | factory v =>
      refine hnone ?_
      rintro ⟨n, d⟩ hf rfl
      rw [fields_unique c.fields hc n d _ hf hkd]; rfl

theorem attrs_keys (c : Decl ν) : ∀ k ∈ c.attrs.keys, k ∈ c.names := by
  intro k hk
  simp only [Decl.attrs, Dict.keys, List.mem_map, List.mem_filterMap] at hk
  obtain ⟨p, ⟨f, hf', hcf⟩, rfl⟩ := hk
  have hfp : f.1 = p.1 := by
    unfold classAttr at hcf
    split at hcf
    · split at hcf
      · cases hcf
      · injection hcf with hcf; rw [← hcf]
    · cases hcf
  rw [← hfp]
  exact List.mem_map_of_mem (f := Prod.fst) hf'

/-- C163 (exact): construction of a decorated class in every case.  An unknown name is refused (`ValueError`); in
strict mode a field without a usable value is refused; otherwise each field holds the given value, else its plain
default if the class has no slots, else nothing or `Unset`: defaults of slotted classes and default factories are
never used. -/
theorem C163_exact_partial (cfg : Cfg ν) (c : Decl ν) (hc : c.names.Nodup) (kw : Dict String ν) (hk : kw.WF) :
    ((∃ k ∈ kw.keys, k ∉ c.names) → construct cfg c kw = .error .valueError) ∧
    ((∀ k ∈ kw.keys, k ∈ c.names) →
      (cfg.strict = true ∧ ∃ k d, (k, d) ∈ c.fields ∧ Missing cfg (firstOf (kw.get? k) (visible c.slots d))) →
      construct cfg c kw = .error .validation) ∧
    ((∀ k ∈ kw.keys, k ∈ c.names) →
      ¬ (cfg.strict = true ∧ ∃ k d, (k, d) ∈ c.fields ∧ Missing cfg (firstOf (kw.get? k) (visible c.slots d))) →
      ∃ a, construct cfg c kw = .ok a ∧ ∀ k d, (k, d) ∈ c.fields →
        Kept cfg (firstOf (kw.get? k) (visible c.slots d)) (a.get? k)) := by
  have hall : kw.keys.all (fun k => decide (k ∈ c.names)) = true ↔ ∀ k ∈ kw.keys, k ∈ c.names := by simp
  have hget : ∀ k d, (k, d) ∈ c.fields → (c.attrs.update kw).get? k = firstOf (kw.get? k) (visible c.slots d) := by
    intro k d hkd
    rw [get?_update' hk, attrs_visible c hc k d hkd]
  have hkeys : (∀ k ∈ kw.keys, k ∈ c.names) → ∀ k ∈ (c.attrs.update kw).keys, k ∈ c.names := by
    intro h k hk
    rcases (Dict.mem_keys_update _ _ _).1 hk with h1 | h1
    · exact attrs_keys c k h1
    · exact h k h1
  have hm : (∃ k d, (k, d) ∈ c.fields ∧ Missing cfg (firstOf (kw.get? k) (visible c.slots d))) ↔
      ∃ k ∈ c.names, Missing cfg ((c.attrs.update kw).get? k) := by
    constructor
    · rintro ⟨k, d, h1, h2⟩
      exact ⟨k, List.mem_map_of_mem (f := Prod.fst) h1, by rw [hget k d h1]; exact h2⟩
    · rintro ⟨k, h1, h2⟩
      obtain ⟨⟨k', d⟩, hkd, rfl⟩ := List.mem_map.1 h1
      exact ⟨k', d, hkd, by rw [← hget k' d hkd]; exact h2⟩
  obtain ⟨-, i2, i3⟩ := C63_exact cfg c.names (c.attrs.update kw)
  unfold construct
  refine ⟨?_, ?_, ?_⟩
  · rintro ⟨k, h1, h2⟩
    rw [if_neg (fun h => h2 (hall.1 h k h1))]
  · rintro h1 ⟨h2, h3⟩
    rw [if_pos (hall.2 h1)]
    exact i2 (hkeys h1) ⟨h2, hm.1 h3⟩
  · intro h1 h2
    rw [if_pos (hall.2 h1)]
    obtain ⟨a, ha, hka⟩ := i3 (hkeys h1) (fun h => h2 ⟨h.1, hm.2 h.2⟩)
    refine ⟨a, ha, fun k d hkd => ?_⟩
    rw [← hget k d hkd]
    exact hka k (List.mem_map_of_mem (f := Prod.fst) hkd)

/-! ## C164 -/

/-- The `__hash__` in force is decided by the last decorator with `eq=True`. -/
theorem hashImpl_last (ds : List Deco) :
    hashImpl ds = match (ds.filter (·.eq)).getLast? with
      | none => .content
      | some d => if d.frozen then .generated else .unhashable := by
  have gen : ∀ (ds : List Deco) (h : HashImpl), ds.foldl decorate h = match (ds.filter (·.eq)).getLast? with
      | none => h
      | some d => if d.frozen then .generated else .unhashable := by
    intro ds
    induction ds with
    | nil => intro h; rfl
    | cons d ds ih =>
      intro h
      rw [List.foldl_cons, ih, decorate]
      cases he : d.eq with
      | false => simp [he]
      | true =>
        simp only [List.filter_cons, he, if_true]
        cases hf : ds.filter (·.eq) with
        | nil => simp
        | cons x xs =>
          rw [List.getLast?_cons_cons, List.getLast?_eq_some_getLast (List.cons_ne_nil x xs)]
  exact gen ds .content

/-- C164 (exact): the last decorator with `eq=True` decides.  None: the hash of what `to_dict` shows.  Not frozen:
`hash` raises `TypeError` for every object.  Frozen: the hash of all fields, `TypeError` exactly if one holds an
unhashable value, `AttributeError` exactly if one is not set. -/
theorem C164_exact_partial (contentHash : Dict String ν → Int) (vhash : ν → Option Int) (mix : List Int → Int)
    (cfg : Cfg ν) (names : List String) (ds : List Deco) (a : Attrs String ν) :
    ((ds.filter (·.eq)).getLast? = none →
      hashObj (hashImpl ds) contentHash vhash mix cfg names a = .ok (contentHash (toDict cfg names a))) ∧
    (∀ d, (ds.filter (·.eq)).getLast? = some d → d.frozen = false →
      hashObj (hashImpl ds) contentHash vhash mix cfg names a = .error .typeError) ∧
    (∀ d, (ds.filter (·.eq)).getLast? = some d → d.frozen = true →
      (∀ h, hashObj (hashImpl ds) contentHash vhash mix cfg names a = .ok h ↔
        ∃ hs, names.map (fun k => (a.get? k).bind vhash) = hs.map some ∧ h = mix hs) ∧
      (hashObj (hashImpl ds) contentHash vhash mix cfg names a = .error .attributeError ↔ ∃ k ∈ names, a.get? k = none) ∧
      (hashObj (hashImpl ds) contentHash vhash mix cfg names a = .error .typeError ↔
        (∀ k ∈ names, a.get? k ≠ none) ∧ ∃ k ∈ names, ∃ v, a.get? k = some v ∧ vhash v = none)) := by
  rw [hashImpl_last]
  refine ⟨?_, ?_, ?_⟩
  · intro h; rw [h]; rfl
  · intro d h hf; rw [h]; simp [hf, hashObj]
  · intro d h hf
    rw [h]
    simp only [hf, if_true, hashObj, generatedHash]
    have inj : ∀ {l m : List Int}, l.map some = m.map some → l = m := by
      intro l m hlm
      exact List.map_inj_right (fun _ _ h => by cases h; rfl) |>.1 hlm
    cases hm : names.mapM (fun k => a.get? k) with
    | none =>
      have hex : ∃ k ∈ names, a.get? k = none := by
        rcases Classical.em (∃ k ∈ names, a.get? k = none) with h | h
        · exact h
        · obtain ⟨r, hr⟩ := mapM_total (fun k => a.get? k) names (fun k hk => by
            cases hg : a.get? k with
            | none => exact absurd ⟨k, hk, hg⟩ h
            | some v => exact ⟨v, rfl⟩)
          rw [hr] at hm; cases hm
      refine ⟨fun h => ?_, ?_, ?_⟩
      · simp only [reduceCtorEq, false_iff]
        rintro ⟨hs, hhs, -⟩
        obtain ⟨k, hk, hg⟩ := hex
        have : (a.get? k).bind vhash ∈ hs.map some := by
          rw [← hhs]; exact List.mem_map_of_mem (f := fun k => (a.get? k).bind vhash) hk
        rw [hg] at this; simp at this
      · simp only [true_iff]; exact hex
      · simp only [Except.error.injEq, reduceCtorEq, false_iff]
        rintro ⟨h1, -⟩
        obtain ⟨k, hk, hg⟩ := hex
        exact h1 k hk hg
    | some vs =>
      have hmm := mapM_map _ _ _ hm
      have hall : ∀ k ∈ names, ∃ v ∈ vs, a.get? k = some v := by
        intro k hk
        have : a.get? k ∈ vs.map some := by rw [← hmm]; exact List.mem_map_of_mem (f := fun k => a.get? k) hk
        obtain ⟨v, hv, e⟩ := List.mem_map.1 this
        exact ⟨v, hv, e.symm⟩
      have hback : ∀ v ∈ vs, ∃ k ∈ names, a.get? k = some v := by
        intro v hv
        have : some v ∈ names.map (fun k => a.get? k) := by rw [hmm]; exact List.mem_map_of_mem hv
        obtain ⟨k, hk, e⟩ := List.mem_map.1 this
        exact ⟨k, hk, e⟩
      have hno : ¬ ∃ k ∈ names, a.get? k = none := by
        rintro ⟨k, hk, hg⟩
        obtain ⟨v, _, hv⟩ := hall k hk
        rw [hg] at hv; cases hv
      have hbind : names.map (fun k => (a.get? k).bind vhash) = vs.map vhash := by
        have : names.map (fun k => (a.get? k).bind vhash) = (names.map (fun k => a.get? k)).map (fun o => o.bind vhash) := by
          rw [List.map_map]; rfl
        rw [this, hmm, List.map_map]; rfl
      rw [hbind]
      dsimp only
      cases hh : vs.mapM vhash with
      | none =>
        have hex : ∃ v ∈ vs, vhash v = none := by
          rcases Classical.em (∃ v ∈ vs, vhash v = none) with h | h
          · exact h
          · obtain ⟨r, hr⟩ := mapM_total vhash vs (fun v hv => by
              cases hg : vhash v with
              | none => exact absurd ⟨v, hv, hg⟩ h
              | some x => exact ⟨x, rfl⟩)
            rw [hr] at hh; cases hh
        obtain ⟨v, hv, hvn⟩ := hex
        refine ⟨fun h => ?_, ?_, ?_⟩
        · simp only [reduceCtorEq, false_iff]
          rintro ⟨hs, hhs, -⟩
          have : vhash v ∈ hs.map some := by rw [← hhs]; exact List.mem_map_of_mem hv
          rw [hvn] at this; simp at this
        · simp only [Except.error.injEq, reduceCtorEq, false_iff]; exact hno
        · simp only [true_iff]
          obtain ⟨k, hk, e⟩ := hback v hv
          exact ⟨fun k hk hg => hno ⟨k, hk, hg⟩, k, hk, v, e, hvn⟩
      | some hs =>
        have hhm := mapM_map _ _ _ hh
        refine ⟨fun h => ?_, ?_, ?_⟩
        · simp only [Except.ok.injEq]
          constructor
          · rintro rfl; exact ⟨hs, hhm, rfl⟩
          · rintro ⟨hs', e, rfl⟩
            rw [hhm] at e
            rw [inj e]
        · simp only [reduceCtorEq, false_iff]; exact hno
        · simp only [reduceCtorEq, false_iff]
          rintro ⟨-, k, hk, v, hg, hvn⟩
          obtain ⟨w, hw, hgw⟩ := hall k hk
          rw [hg] at hgw
          cases hgw
          have : vhash v ∈ hs.map some := by rw [← hhm]; exact List.mem_map_of_mem hw
          rw [hvn] at this; simp at this

example : (([{ eq := false }, {}, { eq := false, frozen := true }] : List Deco).filter (·.eq)).getLast? = some {} := by decide

/-! ## C165 -/

/-- The declared default of a field. -/
def defaultOf : Default ν → Option ν
  | .required => none
  | .plain v => some v
  | .factory v => some v

theorem value_eq_defaultOf (d : Default ν) : d.value = defaultOf d := by cases d <;> rfl

/-- C165 (construction of a `DataClass`, exact): unknown names and required fields without a value raise
`TypeError`; in strict mode a field whose value is a sentinel is refused; otherwise every field holds the given value,
else its default, with `Unset` in place of `Undefined` if the class prefills. -/
theorem C165_construct (cfg : Cfg ν) (c : Decl ν) (hc : c.names.Nodup) (kw : Dict String ν) :
    ((∃ k ∈ kw.keys, k ∉ c.names) ∨ (∃ k d, (k, d) ∈ c.fields ∧ firstOf (kw.get? k) (defaultOf d) = none) →
      dcInit cfg c kw = .error .typeError) ∧
    ((∀ k ∈ kw.keys, k ∈ c.names) → (∀ k d, (k, d) ∈ c.fields → firstOf (kw.get? k) (defaultOf d) ≠ none) →
      (cfg.strict = true ∧ ∃ k d, (k, d) ∈ c.fields ∧ Missing cfg (firstOf (kw.get? k) (defaultOf d))) →
      dcInit cfg c kw = .error .validation) ∧
    ((∀ k ∈ kw.keys, k ∈ c.names) → (∀ k d, (k, d) ∈ c.fields → firstOf (kw.get? k) (defaultOf d) ≠ none) →
      ¬ (cfg.strict = true ∧ ∃ k d, (k, d) ∈ c.fields ∧ Missing cfg (firstOf (kw.get? k) (defaultOf d))) →
      ∃ a, dcInit cfg c kw = .ok a ∧ ∀ k d, (k, d) ∈ c.fields →
        Kept cfg (firstOf (kw.get? k) (defaultOf d)) (a.get? k)) := by
  have hall : kw.keys.all (fun k => decide (k ∈ c.names)) = true ↔ ∀ k ∈ kw.keys, k ∈ c.names := by simp
  have hfi : ∀ f : String × Default ν, fieldInit kw f = (firstOf (kw.get? f.1) (defaultOf f.2)).map (fun v => (f.1, v)) := by
    intro f
    unfold fieldInit
    rw [value_eq_defaultOf]
    cases kw.get? f.1 <;> rfl
  have some_of : (∀ k d, (k, d) ∈ c.fields → firstOf (kw.get? k) (defaultOf d) ≠ none) → ∃ r, c.fields.mapM (fieldInit kw) = some r := by
    intro h
    refine mapM_total _ _ (fun f hf => ?_)
    rw [hfi]
    cases hg : firstOf (kw.get? f.1) (defaultOf f.2) with
    | none => exact absurd hg (h f.1 f.2 hf)
    | some v => exact ⟨_, rfl⟩
  have main : ∀ r : Attrs String ν, c.fields.mapM (fieldInit kw) = some r → (∀ k d, (k, d) ∈ c.fields → r.get? k = firstOf (kw.get? k) (defaultOf d)) ∧
      ((cfg.strict && c.names.any (missingAttr cfg r)) = true ↔
        cfg.strict = true ∧ ∃ k d, (k, d) ∈ c.fields ∧ Missing cfg (firstOf (kw.get? k) (defaultOf d))) := by
    intro r hr
    have hg := (mapM_fieldInit_get? kw c.fields r hc hr).2
    simp only [value_eq_defaultOf] at hg
    refine ⟨hg, ?_⟩
    simp only [Bool.and_eq_true, List.any_eq_true, missingAttr_iff]
    constructor
    · rintro ⟨h1, k, hk, h2⟩
      obtain ⟨⟨k', d⟩, hkd, rfl⟩ := List.mem_map.1 hk
      exact ⟨h1, k', d, hkd, by rw [← hg k' d hkd]; exact h2⟩
    · rintro ⟨h1, k, d, hkd, h2⟩
      exact ⟨h1, k, List.mem_map_of_mem (f := Prod.fst) hkd, by rw [hg k d hkd]; exact h2⟩
  unfold dcInit
  refine ⟨?_, ?_, ?_⟩
  · intro h
    by_cases hk : kw.keys.all (fun k => decide (k ∈ c.names)) = true
    · rw [if_pos hk]
      rcases h with ⟨k, h1, h2⟩ | ⟨k, d, hkd, hno⟩
      · exact absurd (hall.1 hk k h1) h2
      · cases hr : c.fields.mapM (fieldInit kw) with
        | none => rfl
        | some r =>
          have hm := mapM_map _ _ _ hr
          have : fieldInit kw (k, d) ∈ r.map some := by rw [← hm]; exact List.mem_map_of_mem hkd
          rw [hfi] at this
          simp only [hno, Option.map_none] at this
          simp at this
    · rw [if_neg hk]
  · intro h1 h2 h3
    obtain ⟨r, hr⟩ := some_of h2
    rw [if_pos (hall.2 h1), hr]
    simp only
    rw [if_pos ((main r hr).2.2 h3)]
  · intro h1 h2 h3
    obtain ⟨r, hr⟩ := some_of h2
    rw [if_pos (hall.2 h1), hr]
    simp only
    rw [if_neg (fun h => h3 ((main r hr).2.1 h))]
    refine ⟨_, rfl, fun k d hkd => ?_⟩
    rw [← (main r hr).1 k d hkd]
    exact prefill_kept cfg c.names r k (List.mem_map_of_mem (f := Prod.fst) hkd)

/-- What `with_updates` gives a field before validation: the new value, else the old one unless it is a sentinel, else
the declared default. -/
def updated (cfg : Cfg ν) (kw : Dict String ν) (old : Option ν) (k : String) (d : Default ν) : Option ν :=
  firstOf (kw.get? k) (firstOf (old.bind (fun v => if cfg.sentinel v then none else some (cfg.norm v))) (defaultOf d))

/-- C165 (exact): `with_updates` of a `DataClass` in every case. -/
theorem C165_exact_partial (cfg : Cfg ν) (c : Decl ν) (hc : c.names.Nodup) (a : Attrs String ν) (kw : Dict String ν) (hk : kw.WF) :
    ((∃ k ∈ kw.keys, k ∉ c.names) ∨ (∃ k d, (k, d) ∈ c.fields ∧ updated cfg kw (a.get? k) k d = none) →
      dcWithUpdates cfg c a kw = .error .typeError) ∧
    ((∀ k ∈ kw.keys, k ∈ c.names) → (∀ k d, (k, d) ∈ c.fields → updated cfg kw (a.get? k) k d ≠ none) →
      (cfg.strict = true ∧ ∃ k d, (k, d) ∈ c.fields ∧ Missing cfg (updated cfg kw (a.get? k) k d)) →
      dcWithUpdates cfg c a kw = .error .validation) ∧
    ((∀ k ∈ kw.keys, k ∈ c.names) → (∀ k d, (k, d) ∈ c.fields → updated cfg kw (a.get? k) k d ≠ none) →
      ¬ (cfg.strict = true ∧ ∃ k d, (k, d) ∈ c.fields ∧ Missing cfg (updated cfg kw (a.get? k) k d)) →
      ∃ a', dcWithUpdates cfg c a kw = .ok a' ∧ ∀ k d, (k, d) ∈ c.fields →
        Kept cfg (updated cfg kw (a.get? k) k d) (a'.get? k)) := by
  have hg : ∀ k d, (k, d) ∈ c.fields →
      firstOf (((toDict cfg c.names a).update kw).get? k) (defaultOf d) = updated cfg kw (a.get? k) k d := by
    intro k d hkd
    have hkc : k ∈ c.names := List.mem_map_of_mem (f := Prod.fst) hkd
    rw [get?_update' hk, get?_toDict]
    unfold value updated
    rw [if_pos hkc]
    cases kw.get? k <;> rfl
  have hkeys : ∀ k, k ∈ ((toDict cfg c.names a).update kw).keys → k ∈ c.names ∨ k ∈ kw.keys := by
    intro k hk'
    rcases (Dict.mem_keys_update _ _ _).1 hk' with h | h
    · left
      have := (Dict.get?_isSome_iff _ _).2 h
      rw [get?_toDict] at this
      unfold value at this
      split at this
      · assumption
      · cases this
    · exact Or.inr h
  obtain ⟨h1, h2, h3⟩ := C165_construct cfg c hc ((toDict cfg c.names a).update kw)
  unfold dcWithUpdates
  refine ⟨?_, ?_, ?_⟩
  · rintro (⟨k, hk1, hk2⟩ | ⟨k, d, hkd, hno⟩)
    · exact h1 (Or.inl ⟨k, (Dict.mem_keys_update _ _ _).2 (Or.inr hk1), hk2⟩)
    · exact h1 (Or.inr ⟨k, d, hkd, by rw [hg k d hkd]; exact hno⟩)
  · rintro ha hb ⟨hs, k, d, hkd, hm⟩
    refine h2 (fun k hk' => (hkeys k hk').elim id (ha k)) (fun k d hkd => by rw [hg k d hkd]; exact hb k d hkd)
      ⟨hs, k, d, hkd, by rw [hg k d hkd]; exact hm⟩
  · intro ha hb hc'
    obtain ⟨a', e, hka⟩ := h3 (fun k hk' => (hkeys k hk').elim id (ha k)) (fun k d hkd => by rw [hg k d hkd]; exact hb k d hkd)
      (fun ⟨hs, k, d, hkd, hm⟩ => hc' ⟨hs, k, d, hkd, by rw [← hg k d hkd]; exact hm⟩)
    exact ⟨a', e, fun k d hkd => by rw [← hg k d hkd]; exact hka k d hkd⟩

example : dcInit (vCfg false) ⟨[("x", .required), ("y", .plain (.num 2))], true⟩ [] = .error .typeError ∧
    dcInit { vCfg false with strict := true } ⟨[("x", .required), ("y", .plain .unset)], true⟩ [("x", .num 1)] = .error .validation ∧
    dcInit (vCfg false) ⟨[("x", .required), ("y", .plain .undefined)], true⟩ [("x", .num 1)] = .ok [("x", .num 1), ("y", .unset)] := by decide

end Verif.ParamCall
