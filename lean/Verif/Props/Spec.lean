import Verif.Model.Spec

set_option linter.unusedSectionVars false
set_option linter.unusedSimpArgs false
set_option linter.unusedVariables false

namespace Verif.Spec

variable {ν τ : Type}

/-! ## C64 -/

theorem noDup_iff : ∀ (ms : Metas ν) (seen : List Key),
    noDup seen ms = true ↔ (ms.map Prod.fst).Nodup ∧ ∀ k ∈ ms.map Prod.fst, k ∉ seen
  | [], seen => by simp [noDup]
  | m :: ms, seen => by
    simp only [noDup, List.map_cons, List.nodup_cons, List.mem_cons, forall_eq_or_imp]
    by_cases h : m.1 ∈ seen
    · simp [h]
    · rw [if_neg h, noDup_iff ms]
      simp only [List.mem_append, List.mem_singleton, not_or]
      constructor
      · rintro ⟨h1, h2⟩
        exact ⟨⟨fun hm => (h2 _ hm).2 rfl, h1⟩, h, fun k hk => (h2 k hk).1⟩
      · rintro ⟨⟨h1, h2⟩, _, h4⟩
        exact ⟨h2, fun k hk => ⟨h4 k hk, fun e => h1 (e ▸ hk)⟩⟩

theorem mk_ok {V : Values ν} {vt : τ → Bool} {b : Option τ} {md args kw : Metas ν} {s : Spec ν τ} (h : mk V vt b md args kw = .ok s) :
    s = { base := b, metas := md ++ args ++ kw } ∧ ((md ++ args ++ kw).map Prod.fst).Nodup ∧ metasOk V (md ++ args ++ kw) = true
      ∧ nameOk V (md ++ args ++ kw) = true ∧ b.all vt = true := by
  simp only [mk, prepare] at h
  by_cases h1 : noDup [] (md ++ args ++ kw) = true
  · by_cases h2 : metasOk V (md ++ args ++ kw) = true
    · simp only [h1, h2, if_true] at h
      split at h
      · split at h
        · injection h with h
          exact ⟨h.symm, ((noDup_iff _ _).1 h1).1, h2, by assumption, by assumption⟩
        · cases h
      · cases h
    · simp only [h1, if_true, if_neg h2] at h; cases h
  · simp only [if_neg h1] at h; cases h

theorem mk_of {V : Values ν} {vt : τ → Bool} {b : Option τ} {md args kw : Metas ν} (h1 : ((md ++ args ++ kw).map Prod.fst).Nodup)
    (h2 : metasOk V (md ++ args ++ kw) = true) (h3 : nameOk V (md ++ args ++ kw) = true) (h4 : b.all vt = true) :
    mk V vt b md args kw = .ok { base := b, metas := md ++ args ++ kw } := by
  have hd := (noDup_iff (md ++ args ++ kw) []).2 ⟨h1, by simp⟩
  simp only [mk, prepare, hd, h2, h3, h4, if_true]

/-- Every constructed spec has at most one entry per key, and repeated keys are rejected. -/
theorem C64_unique_keys (V : Values ν) (vt : τ → Bool) (b : Option τ) (md args kw : Metas ν) :
    (∀ s, mk V vt b md args kw = .ok s → (s.metas.map Prod.fst).Nodup) ∧
    (¬ ((md ++ args ++ kw).map Prod.fst).Nodup → mk V vt b md args kw = .error .valueError) := by
  constructor
  · intro s h
    obtain ⟨h1, h2, _⟩ := mk_ok h
    rw [h1]; exact h2
  · intro h
    have : noDup [] (md ++ args ++ kw) = false := Bool.eq_false_iff.2 (fun e => h ((noDup_iff _ _).1 e).1)
    simp only [mk, prepare, this, Bool.false_eq_true, if_false]

theorem get_filter_notin (ks : List Key) : ∀ (ms : Metas ν) (k : Key), get (ms.filter (fun m => !decide (m.1 ∈ ks))) k = if k ∈ ks then none else get ms k
  | [], k => by simp [get]
  | (k', v) :: ms, k => by
    have ih := get_filter_notin ks ms k
    simp only [get] at ih ⊢
    by_cases hk : k' ∈ ks
    · rw [List.filter_cons, if_neg (by simp [hk]), ih, Dict.get?_cons]
      by_cases e : k' = k
      · subst e; rw [if_pos hk, if_pos hk]
      · rw [if_neg e]
    · rw [List.filter_cons, if_pos (by simp [hk]), Dict.get?_cons, Dict.get?_cons, ih]
      by_cases e : k' = k
      · subst e; rw [if_pos rfl, if_pos rfl, if_neg hk]
      · rw [if_neg e, if_neg e]

theorem get_filter_sentinel (V : Values ν) : ∀ (kw : Metas ν) (k : Key), (kw.map Prod.fst).Nodup →
    get (kw.filter (fun m => !V.sentinel m.2)) k = (get kw k).bind (fun v => if V.sentinel v then none else some v)
  | [], k, _ => by simp [get]
  | (k', v) :: kw, k, h => by
    simp only [List.map_cons, List.nodup_cons] at h
    have ih := get_filter_sentinel V kw k h.2
    simp only [get] at ih ⊢
    rw [Dict.get?_cons]
    by_cases hs : V.sentinel v = true
    · rw [List.filter_cons, if_neg (by simp [hs]), ih]
      by_cases e : k' = k
      · subst e
        rw [if_pos rfl, (Dict.get?_eq_none_iff _ _).2 h.1]
        simp [hs]
      · rw [if_neg e]
    · rw [List.filter_cons, if_pos (by simp [hs]), Dict.get?_cons, ih]
      by_cases e : k' = k
      · subst e; rw [if_pos rfl, if_pos rfl]; simp [hs]
      · rw [if_neg e, if_neg e]

/-- `with_updates(k=v, ...)`: an updated key maps to its new value, or is absent if that is a sentinel; every other key is unchanged; so is the base type. -/
theorem C64_with_updates (V : Values ν) (vt : τ → Bool) (s s' : Spec ν τ) (kw : Metas ν) (hkw : (kw.map Prod.fst).Nodup)
    (h : withUpdates V vt s kw = .ok s') (k : Key) :
    get s'.metas k = (if k ∈ kw.map Prod.fst then (get kw k).bind (fun v => if V.sentinel v then none else some v) else get s.metas k)
      ∧ s'.base = s.base := by
  obtain ⟨h1, _⟩ := mk_ok h
  subst h1
  refine ⟨?_, rfl⟩
  simp only [List.append_nil]
  have e := Dict.get?_append (s.metas.filter (fun m => !decide (m.1 ∈ kw.map Prod.fst))) (kw.filter (fun m => !V.sentinel m.2)) k
  have e1 := get_filter_notin (kw.map Prod.fst) s.metas k
  have e2 := get_filter_sentinel V kw k hkw
  simp only [get] at e1 e2 ⊢
  simp only [updated]
  rw [e, e1, e2]
  by_cases hk : k ∈ kw.map Prod.fst
  · rw [if_pos hk, if_pos hk]; rfl
  · rw [if_neg hk, if_neg hk]
    have : Dict.get? kw k = none := (Dict.get?_eq_none_iff _ _).2 hk
    rw [this]
    cases Dict.get? s.metas k <;> rfl

/-- Values for the examples: numbers, booleans, names, functions. -/
inductive SV where
  | num (n : Int) | bool (b : Bool) | str (s : String) | fn (i : Nat) | undefined
  deriving DecidableEq, Repr

def svTruthy : SV → Bool
  | .num n => decide (n ≠ 0)
  | .bool b => b
  | .str s => decide (s ≠ "")
  | .fn _ => true
  | .undefined => false

def svCallable : SV → Bool
  | .fn _ => true
  | _ => false

def svName : SV → Bool
  | .str s => decide (s ≠ "")
  | _ => false

/-- Python's `==`: `1 == True`, `0 == False`. -/
def svEq : SV → SV → Bool
  | .num n, .bool b => decide (n = if b then 1 else 0)
  | .bool b, .num n => decide (n = if b then 1 else 0)
  | a, b => decide (a = b)

def demoV : Values SV :=
  { truthy := svTruthy, callable := svCallable, isTrue := fun v => decide (v = .bool true), undefined := fun v => decide (v = .undefined), unset := fun _ => false,
    validName := svName, validators := svCallable, async := fun _ => false }

def vtAny : String → Bool := fun _ => true

example : mk demoV vtAny (some "int") [] [(.name, .str "x")] [(.default, .num 3)] = .ok ⟨some "int", [(.name, .str "x"), (.default, .num 3)]⟩ := by decide
example : mk demoV vtAny (some "int") [] [(.name, .str "x")] [(.name, .str "y")] = .error .valueError := by decide
example : withUpdates demoV vtAny ⟨some "int", [(.name, .str "x"), (.default, .num 3)]⟩ [(.default, .undefined), (.other "title", .str "X")]
    = .ok ⟨some "int", [(.name, .str "x"), (.other "title", .str "X")]⟩ := by decide

/-! ## C123: `with_default` -/

/-- On a spec without a default, `with_default(v)` succeeds and its default value is `v`, or the call of `v` if that is a function.
The full claim covers specs that already have a default or a factory. -/
theorem C123_with_default_partial (V : Values ν) (vt : τ → Bool) (s : Spec ν τ) (v : ν) (hwf : (s.metas.map Prod.fst).Nodup)
    (hok : metasOk V s.metas = true) (hname : nameOk V s.metas = true) (hb : s.base.all vt = true)
    (hd : get s.metas .default = none) (hf : get s.metas .factory = none) (hs : V.sentinel v = false) (ha : V.async v = false) :
    ∃ s', withDefault V vt s v = .ok s' ∧ createDefault V s' = .ok (if V.callable v then .called v else .value v) := by
  have hu : V.undefined v = false := by
    simp only [Values.sentinel, Bool.or_eq_false_iff] at hs; exact hs.1
  have key : ∀ k : Key, (k = .factory ∨ k = .default) → get s.metas k = none := by
    rintro k (rfl | rfl)
    · exact hf
    · exact hd
  have upd : ∀ k : Key, (k = .factory ∨ k = .default) → updated V s.metas [(k, v)] = s.metas ++ [(k, v)] := by
    intro k hk
    simp only [updated]
    congr 1
    · apply List.filter_eq_self.2
      intro m hm
      have : m.1 ≠ k := by
        intro e
        have := (Dict.get?_eq_none_iff s.metas k).1 (key k hk)
        exact this (e ▸ List.mem_map_of_mem hm)
      simp [this]
    · simp [hs]
  have nod : ∀ k : Key, (k = .factory ∨ k = .default) → ((s.metas ++ [(k, v)]).map Prod.fst).Nodup := by
    intro k hk
    simp only [List.map_append, List.map_cons, List.map_nil]
    rw [List.nodup_append]
    refine ⟨hwf, by simp, ?_⟩
    intro a ha' b hb' e
    rw [List.mem_singleton.1 hb'] at e
    exact (Dict.get?_eq_none_iff s.metas k).1 (key k hk) (e ▸ ha')
  have gets : ∀ k k' : Key, get (s.metas ++ [(k, v)]) k' = (get s.metas k').or (if k = k' then some v else none) := by
    intro k k'
    simp only [get, Dict.get?_append, Dict.get?_cons, Dict.get?_nil]
  simp only [metasOk, Bool.and_eq_true] at hok
  cases hc : V.callable v with
  | true =>
    have hm : metasOk V (s.metas ++ [(.factory, v)]) = true := by
      have hval := hok.2
      simp only [metasOk, truthyAt, gets, hd, hf] at hval ⊢
      simp only [Option.none_or, reduceCtorEq, if_false, if_true, Option.or_none] at hval ⊢
      rw [Bool.and_eq_true]
      refine ⟨?_, by simpa using hval⟩
      by_cases ht : V.truthy v = true <;> simp [ht, hc]
    have hn : nameOk V (s.metas ++ [(.factory, v)]) = true := by
      simp only [nameOk, gets, reduceCtorEq, if_false, Option.or_none] at hname ⊢; exact hname
    refine ⟨⟨s.base, s.metas ++ [(.factory, v)]⟩, ?_, ?_⟩
    · simp only [withDefault, hc, if_true, withUpdates]
      rw [upd .factory (Or.inl rfl)]
      have := mk_of (V := V) (vt := vt) (b := s.base) (md := s.metas ++ [(.factory, v)]) (args := []) (kw := [])
        (by simpa only [List.append_nil] using nod .factory (Or.inl rfl)) (by simpa only [List.append_nil] using hm)
        (by simpa only [List.append_nil] using hn) hb
      simpa only [List.append_nil] using this
    · simp [createDefault, default, hasAsync, hasFactory, gets, hd, hf, hc, ha, call, hu]
  | false =>
    have hm : metasOk V (s.metas ++ [(.default, v)]) = true := by
      have hval := hok.2
      simp only [metasOk, truthyAt, gets, hd, hf] at hval ⊢
      simp only [Option.none_or, reduceCtorEq, if_false, if_true, Option.or_none] at hval ⊢
      rw [Bool.and_eq_true]
      refine ⟨?_, by simpa using hval⟩
      by_cases ht : V.truthy v = true <;> simp [ht, hc]
    have hn : nameOk V (s.metas ++ [(.default, v)]) = true := by
      simp only [nameOk, gets, reduceCtorEq, if_false, Option.or_none] at hname ⊢; exact hname
    refine ⟨⟨s.base, s.metas ++ [(.default, v)]⟩, ?_, ?_⟩
    · simp only [withDefault, hc, Bool.false_eq_true, if_false, withUpdates]
      rw [upd .default (Or.inr rfl)]
      have := mk_of (V := V) (vt := vt) (b := s.base) (md := s.metas ++ [(.default, v)]) (args := []) (kw := [])
        (by simpa only [List.append_nil] using nod .default (Or.inr rfl)) (by simpa only [List.append_nil] using hm)
        (by simpa only [List.append_nil] using hn) hb
      simpa only [List.append_nil] using this
    · simp [createDefault, default, hasAsync, hasFactory, gets, hd, hf, hc, ha, call, hu]

/-- A spec with a default cannot be given a factory; and if the default is falsy, both are kept and creating the default value fails: `0()`. -/
theorem C123_override_violation :
    withDefault demoV vtAny ⟨some "int", [(.default, .num 5)]⟩ (.fn 1) = .error .validation ∧
    withDefault demoV vtAny ⟨some "int", [(.default, .num 0)]⟩ (.fn 1) = .ok ⟨some "int", [(.default, .num 0), (.factory, .fn 1)]⟩ ∧
    createDefault demoV ⟨some "int", [(.default, .num 0), (.factory, .fn 1)]⟩ = .error .typeError := by decide

example : withDefault demoV vtAny ⟨some "int", [(.name, .str "x")]⟩ (.fn 1) = .ok ⟨some "int", [(.name, .str "x"), (.factory, .fn 1)]⟩ ∧
    createDefault demoV ⟨some "int", [(.name, .str "x"), (.factory, .fn 1)]⟩ = .ok (.called (.fn 1)) := by decide

/-! ## C124: the cache of `annotated` -/

/-- The cache after a history of calls. -/
def afterCalls (V : Values ν) (keq : Spec ν τ → Spec ν τ → Bool) (maxSize : Nat) (hist : List (Spec ν τ)) : Cache ν τ :=
  hist.foldl (fun c s => (annotated V keq maxSize c s).2) []

theorem cache_entries (V : Values ν) (keq : Spec ν τ → Spec ν τ → Bool) (maxSize : Nat) (hist : List (Spec ν τ)) :
    ∀ e ∈ afterCalls V keq maxSize hist, e.2 = fresh V e.1 := by
  have gen : ∀ (h : List (Spec ν τ)) (c : Cache ν τ), (∀ e ∈ c, e.2 = fresh V e.1) →
      ∀ e ∈ h.foldl (fun c s => (annotated V keq maxSize c s).2) c, e.2 = fresh V e.1 := by
    intro h
    induction h with
    | nil => intro c hc; exact hc
    | cons s h ih =>
      intro c hc
      refine ih _ ?_
      simp only [annotated]
      cases hf : c.find? (fun e => keq e.1 s) with
      | some e0 =>
        intro e he
        rcases List.mem_append.1 he with he | he
        · exact hc e (List.mem_of_mem_eraseP he)
        · rw [List.mem_singleton.1 he]; exact hc e0 (List.mem_of_find?_eq_some hf)
      | none =>
        intro e he
        have := List.mem_of_mem_drop he
        rcases List.mem_append.1 this with he | he
        · exact hc e he
        · rw [List.mem_singleton.1 he]
  exact gen hist [] (by simp)

/-- Whatever was annotated before, the result is that of some spec equal to this one; so it is this spec's own, if equality of cache keys
means sameness.  The full claim has no such proviso. -/
theorem C124_cache_partial (V : Values ν) (keq : Spec ν τ → Spec ν τ → Bool) (maxSize : Nat) (hist : List (Spec ν τ)) (s : Spec ν τ)
    (hk : ∀ s', keq s' s = true → s' = s) : (annotated V keq maxSize (afterCalls V keq maxSize hist) s).1 = fresh V s := by
  simp only [annotated]
  cases hf : (afterCalls V keq maxSize hist).find? (fun e => keq e.1 s) with
  | some e =>
    have h1 := cache_entries V keq maxSize hist e (List.mem_of_find?_eq_some hf)
    have h2 : e.1 = s := hk e.1 (by have := List.find?_some hf; exact this)
    simp only [h1, h2]
  | none => rfl

/-- The cache never exceeds its limit. -/
theorem C124_bounded (V : Values ν) (keq : Spec ν τ → Spec ν τ → Bool) (maxSize : Nat) (hist : List (Spec ν τ)) :
    (afterCalls V keq maxSize hist).length ≤ maxSize := by
  have gen : ∀ (h : List (Spec ν τ)) (c : Cache ν τ), c.length ≤ maxSize →
      (h.foldl (fun c s => (annotated V keq maxSize c s).2) c).length ≤ maxSize := by
    intro h
    induction h with
    | nil => intro c hc; exact hc
    | cons s h ih =>
      intro c hc
      refine ih _ ?_
      simp only [annotated]
      cases hf : c.find? (fun e => keq e.1 s) with
      | some e0 =>
        have h0 : 0 < c.length := List.length_pos_of_mem (List.mem_of_find?_eq_some hf)
        have := List.length_eraseP_of_mem (List.mem_of_find?_eq_some hf) (List.find?_some hf)
        simp only [List.length_append, List.length_singleton]
        omega
      | none =>
        simp only [evict, List.length_drop, List.length_append, List.length_singleton]
        omega
  exact gen hist [] (by simp)

/-- Metadata equality in Python: keys equal and values `==`. -/
def metasEq : Metas SV → Metas SV → Bool
  | [], [] => true
  | a :: as, b :: bs => decide (a.1 = b.1) && svEq a.2 b.2 && metasEq as bs
  | _, _ => false

def specEq (a b : Spec SV String) : Bool := decide (a.base = b.base) && metasEq a.metas b.metas

/-- After `Spec(int, default=1).annotated()`, `Spec(int, default=True).annotated()` carries the default `1`. -/
theorem C124_confusion_violation :
    (annotated demoV specEq 10 (afterCalls demoV specEq 10 [⟨some "int", [(.default, .num 1)]⟩]) ⟨some "int", [(.default, .bool true)]⟩).1
      = (.base "int", [(.default, .num 1)]) := by decide

example : (annotated demoV specEq 1 (afterCalls demoV specEq 1 [⟨some "int", []⟩, ⟨some "str", []⟩]) ⟨some "int", [(.nullable, .bool true)]⟩).1
    = (.optional (.base "int"), [(.nullable, .bool true)]) := by decide

/-! ## C125: `annotated` and `annotation` -/

/-- The type part of `annotated()` is `annotation`, for specs with a base type that are not listable and whose `nullable` is a boolean.
The full claim has no such condition. -/
theorem C125_agree_partial (V : Values ν) (s : Spec ν τ) (t : τ) (hb : s.base = some t) (hwf : (s.metas.map Prod.fst).Nodup)
    (hl : flag V s .listable = false) (hn : ∀ v, get s.metas .nullable = some v → V.truthy v = V.isTrue v) : (fresh V s).1 = annotation V s := by
  have key : s.metas.any (fun m => decide (m.1 = .nullable) && V.truthy m.2) = flag V s .nullable := by
    rw [Bool.eq_iff_iff, List.any_eq_true]
    constructor
    · rintro ⟨m, hm, h⟩
      simp only [Bool.and_eq_true, decide_eq_true_eq] at h
      have : get s.metas .nullable = some m.2 := Dict.get?_of_mem hwf (by rw [← h.1]; exact hm)
      simp only [flag, this, Option.any_some]
      rw [← hn _ this]; exact h.2
    · intro h
      simp only [flag] at h
      cases hg : get s.metas .nullable with
      | none => rw [hg] at h; simp at h
      | some v =>
        rw [hg] at h
        simp only [Option.any_some] at h
        refine ⟨(.nullable, v), Dict.mem_of_get? hg, ?_⟩
        simp [hn v hg, h]
  simp only [fresh, annotation, hb, hl, baseTy, key, applyIf, Bool.false_eq_true, if_false]

/-- A listable spec: `annotation` is a list type, `annotated()` is not. -/
theorem C125_listable_violation :
    annotation demoV ⟨some "int", [(.listable, .bool true)]⟩ = .list (.base "int") ∧
    (fresh demoV (⟨some "int", [(.listable, .bool true)]⟩ : Spec SV String)).1 = .base "int" := by decide

example : annotation demoV ⟨some "int", [(.nullable, .bool true)]⟩ = .optional (.base "int") := by decide

end Verif.Spec
