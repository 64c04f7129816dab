import Verif.Model.ParamCall
import Verif.Props.Params

/-!
# C161-C165: parameter objects in use
-/

set_option linter.unusedSectionVars false
set_option linter.unusedSimpArgs false
set_option linter.unusedVariables false

namespace Verif.ParamCall

open Verif.Params

variable {ν : Type}

/-! ### C161 -/

/-- The first of several answers. -/
def firstOf (a b : Option ν) : Option ν := match a with
  | some v => some v
  | none => b

/-- What the user expects an argument to be: given in the call, else in the stored `kw`/`kwargs` dictionaries (the former wins), else stored under its name, else the function's default. -/
def expected (sig : Sig ν) (stored kwargs_ kw_ call : Dict String ν) (p : String) : Option ν :=
  firstOf (call.get? p) (firstOf (kw_.get? p) (firstOf (kwargs_.get? p) (firstOf (stored.get? p) (sig.defaults.get? p))))

theorem get?_update' {e : Dict String ν} (we : e.WF) (d : Dict String ν) (k : String) : (d.update e).get? k = firstOf (e.get? k) (d.get? k) := by
  rw [Dict.get?_update we]; unfold firstOf; cases e.get? k <;> rfl

/-- Values for the demonstrations: sentinels, `None`, numbers, dictionaries of numbers. -/
inductive V where
  | unset | undefined | none | num (n : Int) | dict (d : List (String × Int))
  deriving DecidableEq

def V.asDict : V → Option (Dict String V)
  | .dict d => some (d.map (fun p => (p.1, .num p.2)))
  | _ => Option.none

def V.sent (noneIs : Bool) : V → Bool
  | .unset => true
  | .undefined => true
  | .none => noneIs
  | _ => false

def V.undef : V → Bool
  | .undefined => true
  | _ => false

/-- `ModelConfig(none_as_sentinel=noneIs)`. -/
def vCfg (noneIs : Bool) : Cfg V := { sentinel := V.sent noneIs, undefined := V.undef, unset := .unset, norm := id, strict := false, prefill := true }

theorem value_construct (cfg : Cfg ν) (hn : ∀ v, cfg.norm v = v) (hu : cfg.sentinel cfg.unset = true) (hund : ∀ v, cfg.undefined v = true → cfg.sentinel v = true)
    {keys : List String} {kw : Dict String ν} {a : Attrs String ν} (h : init cfg keys kw = .ok a) (hs : ∀ p v, kw.get? p = some v → cfg.sentinel v = false) (p : String) :
    (toDict cfg keys a).get? p = kw.get? p := by
  rw [get?_toDict]
  unfold init at h
  split at h
  · rename_i hk
    split at h
    · cases h
    · injection h with h
      subst h
      rw [value_prefill cfg hu hund]
      unfold value
      cases hg : kw.get? p with
      | none => simp
      | some v =>
        simp only [List.all_eq_true, decide_eq_true_eq] at hk
        rw [if_pos (hk p (Dict.mem_keys_of_get? hg))]
        simp [hs p v hg, hn]
  · cases h

/-- C161 (partial): missing: stored values that count as "not given" for the class, in particular `None` for `AlcallParams`. For every other stored value, stored `kw`/`kwargs` dictionary and keyword of the call, calling the object calls the function with exactly the expected value of every argument (and passes unknown names on, if the function takes them). -/
theorem C161_call_partial (cfg : Cfg ν) (hn : ∀ v, cfg.norm v = v) (hu : cfg.sentinel cfg.unset = true)
    (hund : ∀ v, cfg.undefined v = true → cfg.sentinel v = true) (asDict : ν → Option (Dict String ν)) (sig : Sig ν)
    (keys : List String) (hk : keys.Nodup) (given : Dict String ν) (a : Attrs String ν) (h : init cfg keys given = .ok a)
    (hs : ∀ p v, given.get? p = some v → cfg.sentinel v = false)
    (e1 e2 call : Dict String ν) (w1 : e1.WF) (w2 : e2.WF) (wc : call.WF)
    (h1 : (given.get? "kwargs" = none ∧ e1 = []) ∨ ∃ v, given.get? "kwargs" = some v ∧ asDict v = some e1)
    (h2 : (given.get? "kw" = none ∧ e2 = []) ∨ ∃ v, given.get? "kw" = some v ∧ asDict v = some e2) :
    (∀ r, callObj cfg asDict sig keys a call = .ok r → ∀ p, p ≠ "kw" → p ≠ "kwargs" → r.get? p = expected sig given e1 e2 call p) ∧
    ((∀ p, p ∈ call.keys ∨ p ∈ e1.keys ∨ p ∈ e2.keys ∨ (p ∈ given.keys ∧ p ≠ "kw" ∧ p ≠ "kwargs") → p ∈ sig.defaults.keys ∨ sig.varkw = true) →
      ∃ r, callObj cfg asDict sig keys a call = .ok r) := by
  have hv := value_construct cfg hn hu hund h hs
  have hw := toDict_wf cfg keys hk a
  have q1 : entriesOf asDict (toDict cfg keys a) "kwargs" = some e1 := by
    unfold entriesOf; rw [hv]
    rcases h1 with ⟨h1, rfl⟩ | ⟨v, h1, h1'⟩ <;> rw [h1]
    exact h1'
  have q2 : entriesOf asDict (toDict cfg keys a) "kw" = some e2 := by
    unfold entriesOf; rw [hv]
    rcases h2 with ⟨h2, rfl⟩ | ⟨v, h2, h2'⟩ <;> rw [h2]
    exact h2'
  have hd : defaultKw cfg asDict keys a = .ok ((((toDict cfg keys a).del "kwargs").del "kw").update (Dict.update (Dict.update [] e1) e2)) := by
    unfold defaultKw; rw [q1, q2]
  have w0 : (Dict.update (Dict.update [] e1) e2).WF := Dict.update_wf (Dict.update_wf (d := []) (by simp [Dict.WF, Dict.keys]) _) _
  have wd : ((((toDict cfg keys a).del "kwargs").del "kw").update (Dict.update (Dict.update [] e1) e2)).WF :=
    Dict.update_wf (Dict.del_wf (Dict.del_wf hw _) _) _
  have get_d : ∀ p, p ≠ "kw" → p ≠ "kwargs" → ((((toDict cfg keys a).del "kwargs").del "kw").update (Dict.update (Dict.update [] e1) e2)).get? p =
      firstOf (e2.get? p) (firstOf (e1.get? p) (given.get? p)) := by
    intro p hp hp'
    rw [get?_update' w0, get?_update' w2, get?_update' w1, Dict.get?_del (Dict.del_wf hw _), if_neg (Ne.symm hp), Dict.get?_del hw, if_neg (Ne.symm hp'), hv]
    cases e2.get? p <;> cases e1.get? p <;> rfl
  refine ⟨?_, ?_⟩
  · intro r hr p hp hp'
    unfold callObj at hr
    rw [hd] at hr
    simp only [bind] at hr
    split at hr
    · injection hr with hr
      subst hr
      rw [get?_update' (Dict.update_wf wd _), get?_update' wc, get_d p hp hp']
      unfold expected
      cases call.get? p <;> cases e2.get? p <;> cases e1.get? p <;> rfl
    · cases hr
  · intro hall
    refine ⟨sig.defaults.update (((((toDict cfg keys a).del "kwargs").del "kw").update (Dict.update (Dict.update [] e1) e2)).update call), ?_⟩
    unfold callObj
    rw [hd]
    simp only [bind]
    rw [if_pos]
    rw [Bool.or_eq_true]
    by_cases hvk : sig.varkw = true
    · exact .inl hvk
    · right
      simp only [List.all_eq_true, decide_eq_true_eq]
      intro p hp
      have hp' : p ∈ call.keys ∨ p ∈ e1.keys ∨ p ∈ e2.keys ∨ (p ∈ given.keys ∧ p ≠ "kw" ∧ p ≠ "kwargs") := by
        rcases (Dict.mem_keys_update _ _ _).1 hp with hp | hp
        · rcases (Dict.mem_keys_update _ _ _).1 hp with hp | hp
          · rw [Dict.mem_keys_del (Dict.del_wf hw _), Dict.mem_keys_del hw] at hp
            refine .inr (.inr (.inr ⟨?_, ?_⟩))
            · have hg := (Dict.get?_isSome_iff _ _).2 hp.2.2
              rw [hv] at hg
              exact (Dict.get?_isSome_iff _ _).1 hg
            · exact ⟨hp.1, hp.2.1⟩
          · rcases (Dict.mem_keys_update _ _ _).1 hp with hp | hp
            · rcases (Dict.mem_keys_update _ _ _).1 hp with hp | hp
              · simp [Dict.keys] at hp
              · exact .inr (.inl hp)
            · exact .inr (.inr (.inl hp))
        · exact .inl hp
      rcases hall p hp' with h | h
      · exact h
      · exact absurd h hvk

/-- The part of `alcall`'s signature used below: `retry_default` is `Unset` (raise), `retry_attempts` 0. -/
def alcallSig : Sig V := { defaults := [("retry_default", .unset), ("retry_attempts", .num 0), ("max_concurrent", .none)], varkw := true }

/-- The keys of `AlcallParams` used below. -/
def alcallKeys : List String := ["retry_default", "retry_attempts", "max_concurrent", "kw"]

/-- C161: every stored parameter reaches the function. This fails: `AlcallParams(retry_default=None)` treats `None` as not given, and `alcall` is called with `retry_default=Unset`, which raises the last error instead of returning `None`. -/
theorem C161_violation : ∃ a, init (vCfg true) alcallKeys [("retry_default", V.none), ("retry_attempts", .num 3)] = .ok a ∧
    callObj (vCfg true) V.asDict alcallSig alcallKeys a [] = .ok [("retry_default", .unset), ("retry_attempts", .num 3), ("max_concurrent", .none)] ∧
    expected alcallSig [("retry_default", V.none), ("retry_attempts", .num 3)] [] [] [] "retry_default" = some .none :=
  ⟨[("retry_default", .none), ("retry_attempts", .num 3), ("max_concurrent", .unset), ("kw", .unset)], by decide, by decide, by decide⟩

/-- Stored parameters, a stored `kw` dictionary and an override in the call. -/
example : ∃ a, init (vCfg true) alcallKeys [("retry_attempts", .num 3), ("kw", .dict [("add", 5)])] = .ok a ∧
    callObj (vCfg true) V.asDict alcallSig alcallKeys a [("max_concurrent", .num 2)] =
      .ok [("retry_default", .unset), ("retry_attempts", .num 3), ("max_concurrent", .num 2), ("add", .num 5)] :=
  ⟨[("retry_attempts", .num 3), ("kw", .dict [("add", 5)]), ("retry_default", .unset), ("max_concurrent", .unset)], by decide, by decide⟩

/-! ### C162 -/

/-- C162: calling a `BcallParams` object gives the batches of `bcall` with the stored parameters. This fails always: whatever is stored and given, the call raises `TypeError` (two values for `batch_size`, or awaiting an async generator). -/
theorem C162_violation (cfg : Cfg ν) (asDict : ν → Option (Dict String ν)) (keys : List String) (a : Attrs String ν) (kw : Dict String ν) :
    callBcall cfg asDict keys a kw = .error .typeError := by
  unfold callBcall defaultKw
  split
  · rename_i e h
    split at h <;> cases h
    rfl
  · unfold bcallCall
    split
    · rename_i h; split at h <;> cases h; rfl
    · rfl

/-! ### C163 -/

/-- The value a field should have after construction: as given, else its default, else `Unset`. -/
def declared (cfg : Cfg ν) (d : Default ν) (given : Option ν) : ν :=
  match given with
  | some v => v
  | none =>
    match d with
    | .required => cfg.unset
    | .plain v => v
    | .factory v => v

/-- C163: a field that is not given has its declared default. This fails with `slots=True` (as in all classes of the library: `FuzzyMatchKeysParams().similarity_threshold` is `Unset`), and for default factories. -/
theorem C163_violation :
    construct (vCfg false) ⟨[("similarity_threshold", .plain (.num 85))], true⟩ [] = .ok [("similarity_threshold", .unset)] ∧
    construct (vCfg false) ⟨[("headers", .factory (.dict []))], false⟩ [] = .ok [("headers", .unset)] ∧
    declared (vCfg false) (.plain (.num 85)) none = .num 85 := by decide

/-- A plain default. -/
def plainOf : Default ν → Option ν
  | .plain v => some v
  | _ => none

theorem attrs_get? (fields : List (String × Default ν)) (hf : (fields.map Prod.fst).Nodup) (k : String) (v : ν) (h : (k, .plain v) ∈ fields) :
    Dict.get? (fields.filterMap (classAttr false)) k = some v := by
  induction fields with
  | nil => simp at h
  | cons f fs ih =>
    obtain ⟨n, d⟩ := f
    simp only [List.map_cons, List.nodup_cons] at hf
    rcases List.mem_cons.1 h with h | h
    · obtain ⟨rfl, rfl⟩ := Prod.mk.inj h
      simp only [List.filterMap_cons, classAttr, Bool.false_eq_true, if_false]
      show Dict.get? ((k, v) :: _) k = _
      rw [Dict.get?_cons, if_pos rfl]
    · have hne : n ≠ k := fun e => hf.1 (e ▸ List.mem_map_of_mem (f := Prod.fst) h)
      have := ih hf.2 h
      simp only [List.filterMap_cons]
      cases d with
      | required => exact this
      | factory w => exact this
      | plain w =>
        simp only [classAttr, Bool.false_eq_true, if_false]
        show Dict.get? ((n, w) :: _) k = _
        rw [Dict.get?_cons, if_neg hne]; exact this

/-- A required field leaves no class attribute. -/
theorem attrs_get?_required (slots : Bool) (fields : List (String × Default ν)) (hf : (fields.map Prod.fst).Nodup) (k : String) (h : (k, .required) ∈ fields) :
    Dict.get? (fields.filterMap (classAttr slots)) k = none := by
  rw [Dict.get?_eq_none_iff]
  intro hm
  simp only [Dict.keys, List.mem_map, List.mem_filterMap] at hm
  obtain ⟨p, ⟨f, hf', hc⟩, rfl⟩ := hm
  obtain ⟨n, d⟩ := f
  cases d with
  | required => simp [classAttr] at hc
  | factory w => simp [classAttr] at hc
  | plain w =>
    simp only [classAttr] at hc
    split at hc
    · cases hc
    · injection hc with hc
      subst hc
      have key : ∀ (l : List (String × Default ν)), (l.map Prod.fst).Nodup → ∀ a b x, (a, x) ∈ l → (a, b) ∈ l → x = b := by
        intro l
        induction l with
        | nil => intro _ _ _ _ h; simp at h
        | cons q l ih =>
          intro hn a b x hx hb
          simp only [List.map_cons, List.nodup_cons] at hn
          rcases List.mem_cons.1 hx with hx | hx <;> rcases List.mem_cons.1 hb with hb | hb
          · rw [← hx] at hb; exact ((Prod.mk.inj hb).2).symm
          · rw [← hx] at hn; exact absurd (List.mem_map_of_mem (f := Prod.fst) hb) hn.1
          · rw [← hb] at hn; exact absurd (List.mem_map_of_mem (f := Prod.fst) hx) hn.1
          · exact ih hn.2 a b x hx hb
      have := key fields hf _ _ _ hf' h
      cases this

/-- C163 (partial): missing: classes with slots and default factories. Without slots, every field has the given value, else its declared plain default, else `Unset`. -/
theorem C163_defaults_partial (cfg : Cfg ν) (hp : cfg.prefill = true) (c : Decl ν) (hc : c.names.Nodup) (hs : c.slots = false)
    (kw : Dict String ν) (hk : kw.WF) (a : Attrs String ν) (h : construct cfg c kw = .ok a)
    (k : String) (d : Default ν) (hkd : (k, d) ∈ c.fields) (hd : ∀ v, d ≠ .factory v)
    (hu : ∀ v, cfg.undefined v = true → kw.get? k ≠ some v ∧ d ≠ .plain v) (hu' : cfg.undefined cfg.unset = false) :
    a.get? k = some (declared cfg d (kw.get? k)) := by
  unfold construct at h
  split at h
  · unfold init at h
    split at h
    · split at h
      · cases h
      · injection h with h
        subst h
        have hg : (c.attrs.update kw).get? k = firstOf (kw.get? k) (plainOf d) := by
          rw [get?_update' hk]
          congr 1
          unfold Decl.attrs
          rw [hs]
          cases d with
          | required => exact attrs_get?_required false c.fields hc k hkd
          | plain v => exact attrs_get? c.fields hc k v hkd
          | factory v => exact absurd rfl (hd v)
        rcases get?_prefill cfg c.names (c.attrs.update kw) k with e | ⟨e1, e2, e3⟩
        · rw [e, hg]
          cases hkw : kw.get? k with
          | some v => rfl
          | none =>
            cases d with
            | plain v => rfl
            | factory v => exact absurd rfl (hd v)
            | required =>
              exfalso
              have hn : (c.attrs.update kw).get? k = none := by rw [hg, hkw]; rfl
              rw [hn] at e
              have full : ∀ (ks : List String) (b : Attrs String ν), k ∈ ks → (prefill cfg ks b).get? k ≠ none := by
                intro ks
                induction ks with
                | nil => intro b hb; simp at hb
                | cons x ks ih =>
                  intro b hb
                  simp only [prefill, hp, Bool.true_and]
                  by_cases hx : x = k
                  · subst hx
                    split
                    · rcases get?_prefill cfg ks (b.set x cfg.unset) x with e | ⟨_, _, e⟩
                      · rw [e, Dict.get?_set, if_pos rfl]; simp
                      · rw [e]; simp
                    · rename_i hne
                      cases hbx : b.get? x with
                      | none => simp [undefinedAttr, hbx] at hne
                      | some v =>
                        rcases get?_prefill cfg ks b x with e | ⟨_, _, e⟩
                        · rw [e, hbx]; simp
                        · rw [e]; simp
                  · have hb' : k ∈ ks := by
                      rcases List.mem_cons.1 hb with hb | hb
                      · exact absurd hb.symm hx
                      · exact hb
                    split <;> exact ih _ hb'
              exact full c.names _ (List.mem_map_of_mem (f := Prod.fst) hkd) e
        · rw [e3]
          simp only [undefinedAttr, hg] at e1
          cases hkw : kw.get? k with
          | some v => rw [hkw] at e1; exact absurd hkw (hu v e1).1
          | none =>
            rw [hkw] at e1
            cases d with
            | required => rfl
            | plain v => exact absurd rfl (hu v e1).2
            | factory v => exact absurd rfl (hd v)
    · cases h
  · cases h

example : construct (vCfg false) ⟨[("name", .required), ("size", .plain (.num 3)), ("tag", .plain .none)], false⟩ [("tag", .num 1)] =
    .ok [("size", .num 3), ("tag", .num 1), ("name", .unset)] := by decide

/-! ### C164 -/

/-- C164: instances of subclasses are hashable by content. This fails: a `DataClass` subclass decorated with plain `@dataclass` is unhashable; a frozen `Params` subclass raises `TypeError` once a field holds an unhashable value such as a list or dict. -/
theorem C164_violation (contentHash : Dict String V → Int) (mix : List Int → Int) :
    hashObj (hashImpl [{}]) contentHash (fun _ => some 0) mix (vCfg false) ["x"] [("x", .num 1)] = .error .typeError ∧
    hashObj (hashImpl [{ frozen := true }]) contentHash (fun v => if v = .dict [] then none else some 0) mix (vCfg false) ["x"] [("x", .dict [])] = .error .typeError :=
  ⟨rfl, by simp [hashObj, hashImpl, decorate, generatedHash, Dict.get?]⟩

/-- All decorated with `eq=False`. -/
theorem hashImpl_content (ds : List Deco) (h : ∀ d ∈ ds, d.eq = false) : hashImpl ds = .content := by
  unfold hashImpl
  induction ds with
  | nil => rfl
  | cons d ds ih =>
    rw [List.foldl_cons, decorate, if_neg (by simp [h d List.mem_cons_self])]
    exact ih (fun d' hd' => h d' (List.mem_cons_of_mem _ hd'))

/-- Ending in a frozen class with generated equality. -/
theorem hashImpl_frozen (ds : List Deco) : hashImpl (ds ++ [{ eq := true, frozen := true }]) = .generated := by
  unfold hashImpl; rw [List.foldl_append]; rfl

theorem mapM_map {α β : Type} (f : α → Option β) : ∀ (l : List α) (r : List β), l.mapM f = some r → l.map f = r.map some
  | [], r, h => by simp at h; subst h; rfl
  | x :: l, r, h => by
    simp only [List.mapM_cons, Option.bind_eq_bind, Option.bind_eq_some_iff, Option.pure_def, Option.some.injEq] at h
    obtain ⟨y, hy, ys, hys, rfl⟩ := h
    simp [hy, mapM_map f l ys hys]

theorem mapM_total {α β : Type} (f : α → Option β) : ∀ (l : List α), (∀ x ∈ l, ∃ y, f x = some y) → ∃ r, l.mapM f = some r
  | [], _ => ⟨[], rfl⟩
  | x :: l, h => by
    obtain ⟨y, hy⟩ := h x List.mem_cons_self
    obtain ⟨r, hr⟩ := mapM_total f l (fun z hz => h z (List.mem_cons_of_mem _ hz))
    exact ⟨y :: r, by simp [List.mapM_cons, hy, hr]⟩

/-- C164 (partial): missing: plain `@dataclass` on `DataClass` subclasses and unhashable values in frozen `Params` subclasses. A class whose decorators all say `eq=False` hashes by what `to_dict` shows and never raises; a frozen `Params` subclass whose field values are hashable never raises, and equal field values hash equally. -/
theorem C164_hash_partial (contentHash : Dict String ν → Int) (vhash : ν → Option Int) (mix : List Int → Int) (cfg : Cfg ν) (names : List String) :
    (∀ ds : List Deco, (∀ d ∈ ds, d.eq = false) → ∀ a, hashObj (hashImpl ds) contentHash vhash mix cfg names a = .ok (contentHash (toDict cfg names a))) ∧
    (∀ ds : List Deco, ∀ a a' : Attrs String ν, (∀ k ∈ names, ∃ v h, a.get? k = some v ∧ vhash v = some h) → (∀ k ∈ names, a'.get? k = a.get? k) →
      ∃ h, hashObj (hashImpl (ds ++ [{ eq := true, frozen := true }])) contentHash vhash mix cfg names a = .ok h ∧
        hashObj (hashImpl (ds ++ [{ eq := true, frozen := true }])) contentHash vhash mix cfg names a' = .ok h) := by
  refine ⟨?_, ?_⟩
  · intro ds h a; rw [hashImpl_content ds h]; rfl
  · intro ds a a' h he
    rw [hashImpl_frozen]
    simp only [hashObj, generatedHash]
    obtain ⟨vs, hvs⟩ := mapM_total (fun k => a.get? k) names (fun k hk => by obtain ⟨v, _, hv, _⟩ := h k hk; exact ⟨v, hv⟩)
    have hcongr : names.mapM (fun k => a'.get? k) = names.mapM (fun k => a.get? k) := by
      clear h hvs
      induction names with
      | nil => rfl
      | cons k ks ih =>
        simp only [List.mapM_cons]
        rw [he k List.mem_cons_self, ih (fun k' hk' => he k' (List.mem_cons_of_mem _ hk'))]
    obtain ⟨hs, hhs⟩ := mapM_total vhash vs (fun v hv => by
      have hm := mapM_map _ _ _ hvs
      have : some v ∈ names.map (fun k => a.get? k) := by rw [hm]; exact List.mem_map_of_mem hv
      obtain ⟨k, hk, hkv⟩ := List.mem_map.1 this
      obtain ⟨v', h', hv', hh'⟩ := h k hk
      rw [hkv] at hv'
      exact ⟨h', by rw [Option.some.inj hv']; exact hh'⟩)
    exact ⟨mix hs, by rw [hvs]; simp [hhs], by rw [hcongr, hvs]; simp [hhs]⟩

example : hashImpl [{ eq := false }, { eq := false, frozen := true }] = .content ∧ hashImpl [{}, { frozen := true }] = .generated := by decide

/-! ### C165 -/

/-- C165: `with_updates` of a `DataClass` changes exactly the given fields. This fails: a required field that holds `Unset` makes it raise `TypeError`, and a field that was set to `Unset` comes back with its default. -/
theorem C165_violation :
    dcWithUpdates (vCfg false) ⟨[("x", .required), ("y", .required)], true⟩ [("x", .unset), ("y", .num 1)] [("y", .num 2)] = .error .typeError ∧
    dcWithUpdates (vCfg false) ⟨[("x", .plain (.num 30)), ("y", .required)], true⟩ [("x", .unset), ("y", .num 1)] [("y", .num 2)] = .ok [("x", .num 30), ("y", .num 2)] := by
  decide

theorem mapM_fieldInit_get? (kw : Dict String ν) : ∀ (fields : List (String × Default ν)) (a : Attrs String ν), (fields.map Prod.fst).Nodup →
    fields.mapM (fieldInit kw) = some a → a.keys = fields.map Prod.fst ∧ ∀ k d, (k, d) ∈ fields → a.get? k = firstOf (kw.get? k) d.value
  | [], a, _, h => by simp at h; subst h; exact ⟨rfl, by simp⟩
  | f :: fs, a, hn, h => by
    simp only [List.mapM_cons, Option.bind_eq_bind, Option.bind_eq_some_iff, Option.pure_def, Option.some.injEq] at h
    obtain ⟨p, hp, as, has, rfl⟩ := h
    simp only [List.map_cons, List.nodup_cons] at hn
    obtain ⟨ih1, ih2⟩ := mapM_fieldInit_get? kw fs as hn.2 has
    have hpf : p = (f.1, p.2) ∧ some p.2 = firstOf (kw.get? f.1) f.2.value := by
      unfold fieldInit at hp
      cases hk : kw.get? f.1 with
      | some v => rw [hk] at hp; injection hp with hp; subst hp; exact ⟨rfl, rfl⟩
      | none =>
        rw [hk] at hp
        simp only at hp
        cases hd : f.2.value with
        | none => rw [hd] at hp; cases hp
        | some v => rw [hd] at hp; injection hp with hp; subst hp; exact ⟨rfl, rfl⟩
    refine ⟨?_, ?_⟩
    · simp only [Dict.keys, List.map_cons]
      rw [hpf.1]
      simp only [List.cons.injEq, true_and]
      exact ih1
    · intro k d hkd
      rw [hpf.1]
      show Dict.get? ((f.1, p.2) :: as) k = _
      rw [Dict.get?_cons]
      rcases List.mem_cons.1 hkd with e | hm
      · rw [← e]; simp only [if_true]; rw [hpf.2, ← e]
      · have hne : f.1 ≠ k := fun e => hn.1 (e ▸ List.mem_map_of_mem (f := Prod.fst) hm)
        rw [if_neg hne]; exact ih2 k d hm

/-- C165 (partial): missing: fields that hold a sentinel while their default is no sentinel or missing. Otherwise `with_updates` succeeds for known names (outside strict mode), and afterwards `to_dict` shows the new value of every given field and the old value of every other one. -/
theorem C165_with_updates_partial (cfg : Cfg ν) (hst : cfg.strict = false) (hu : cfg.sentinel cfg.unset = true)
    (hund : ∀ v, cfg.undefined v = true → cfg.sentinel v = true) (hn : ∀ v, cfg.norm v = v)
    (c : Decl ν) (hc : c.names.Nodup) (a : Attrs String ν)
    (hs : ∀ k d, (k, d) ∈ c.fields → (∃ v, a.get? k = some v ∧ cfg.sentinel v = false) ∨ ∃ w, d.value = some w ∧ cfg.sentinel w = true)
    (kw : Dict String ν) (hk : kw.WF) (hkn : ∀ k ∈ kw.keys, k ∈ c.names) :
    ∃ a', dcWithUpdates cfg c a kw = .ok a' ∧ ∀ k ∈ c.names,
      (toDict cfg c.names a').get? k = if k ∈ kw.keys then (kw.get? k).filter (fun v => !cfg.sentinel v) else (toDict cfg c.names a).get? k := by
  have hall : ((toDict cfg c.names a).update kw).keys.all (fun k => decide (k ∈ c.names)) = true := by
    simp only [List.all_eq_true, decide_eq_true_eq]
    intro k hk'
    rcases (Dict.mem_keys_update _ _ _).1 hk' with hk' | hk'
    · have := (Dict.get?_isSome_iff _ _).2 hk'
      rw [get?_toDict] at this
      unfold value at this
      split at this
      · assumption
      · cases this
    · exact hkn k hk'
  have gd : ∀ k d, (k, d) ∈ c.fields → (toDict cfg c.names a).get? k = (a.get? k).bind (fun v => if cfg.sentinel v then none else some v) := by
    intro k d hkd
    rw [get?_toDict]
    unfold value
    have hkc : k ∈ c.names := List.mem_map_of_mem (f := Prod.fst) hkd
    rw [if_pos hkc]
    cases a.get? k with
    | none => rfl
    | some v => simp [hn]
  have htot : ∃ r, c.fields.mapM (fieldInit ((toDict cfg c.names a).update kw)) = some r := by
    refine mapM_total _ _ (fun f hf => ?_)
    unfold fieldInit
    cases hg : ((toDict cfg c.names a).update kw).get? f.1 with
    | some v => exact ⟨_, rfl⟩
    | none =>
      rcases hs f.1 f.2 hf with ⟨v, hv, hv'⟩ | ⟨w, hw, _⟩
      · exfalso
        rw [get?_update' hk, gd f.1 f.2 hf, hv] at hg
        simp only [Option.bind_some, hv', Bool.false_eq_true, if_false] at hg
        cases hkw : kw.get? f.1 <;> rw [hkw] at hg <;> cases hg
      · exact ⟨(f.1, w), by simp [hw]⟩
  obtain ⟨r, hr⟩ := htot
  have hget := (mapM_fieldInit_get? _ c.fields r hc hr).2
  refine ⟨prefill cfg c.names r, ?_, ?_⟩
  · unfold dcWithUpdates dcInit
    rw [if_pos hall, hr]
    simp [hst]
  · intro k hkc
    obtain ⟨⟨k', d⟩, hkd, rfl⟩ := List.mem_map.1 hkc
    simp only at hkc ⊢
    rw [get?_toDict, value_prefill cfg hu hund]
    unfold value
    rw [if_pos hkc, hget k' d hkd, get?_update' hk, gd k' d hkd]
    by_cases hm : k' ∈ kw.keys
    · rw [if_pos hm]
      cases hkw : kw.get? k' with
      | none => exact absurd hm ((Dict.get?_eq_none_iff _ _).1 hkw)
      | some v => simp [firstOf, hn, Option.filter]; cases cfg.sentinel v <;> simp
    · rw [if_neg hm, (Dict.get?_eq_none_iff _ _).2 hm]
      rcases hs k' d hkd with ⟨v, hv, hv'⟩ | ⟨w, hw, hw'⟩
      · rw [hv]; simp [firstOf, hv', hn]
      · cases ha : a.get? k' with
        | none => simp [firstOf, hw, hw']
        | some v =>
          by_cases hsv : cfg.sentinel v = true
          · simp [firstOf, hw, hw', hsv]
          · simp [firstOf, hsv, hn]

example : dcWithUpdates (vCfg false) ⟨[("x", .plain .unset), ("y", .required), ("z", .factory (.dict []))], true⟩
    [("x", .unset), ("y", .num 1), ("z", .dict [("q", 1)])] [("y", .num 2)] = .ok [("x", .unset), ("y", .num 2), ("z", .dict [("q", 1)])] := by decide

end Verif.ParamCall
