import Verif.Props.Spec
import Verif.Py.ListLemmas

/-!
# C222 (what a `Spec` accepts and what its default is), exact rule for C123, what the cache of C124 keeps
-/

set_option linter.unusedSectionVars false
set_option linter.unusedSimpArgs false
set_option linter.unusedVariables false

namespace Verif.Spec

variable {ν τ : Type}

/-! ## Specification vocabulary -/

/-- The constraints on the common keys: not both a (truthy) default and a (truthy) factory; a factory can be called; a
validator is a callable or a list of callables. -/
def Consistent (V : Values ν) (ms : Metas ν) : Prop :=
  (∀ d f, (Key.default, d) ∈ ms → (Key.factory, f) ∈ ms → V.truthy d = true → V.truthy f = true → False) ∧
  (∀ f, (Key.factory, f) ∈ ms → V.truthy f = true → V.callable f = true) ∧
  (∀ v, (Key.validator, v) ∈ ms → V.truthy v = true → V.validators v = true)

/-- A name, if given, is a non-empty string, and a base type, if given, is a type. -/
def Named (V : Values ν) (vt : τ → Bool) (b : Option τ) (ms : Metas ν) : Prop :=
  (∀ v, (Key.name, v) ∈ ms → V.validName v = true) ∧ ∀ t, b = some t → vt t = true

/-! ## Helpers -/

theorem get_iff {ms : Metas ν} (h : (ms.map Prod.fst).Nodup) (k : Key) (v : ν) : get ms k = some v ↔ (k, v) ∈ ms :=
  Dict.get?_iff_mem (d := ms) h k v

theorem truthyAt_iff (V : Values ν) {ms : Metas ν} (h : (ms.map Prod.fst).Nodup) (k : Key) (v : ν) :
    truthyAt V ms k = some v ↔ (k, v) ∈ ms ∧ V.truthy v = true := by
  rw [← get_iff h]
  unfold truthyAt
  cases get ms k with
  | none => simp
  | some w =>
    by_cases hw : V.truthy w = true
    · simp only [hw, if_true, Option.some.injEq]
      constructor
      · rintro rfl; exact ⟨rfl, hw⟩
      · exact fun h => h.1
    · simp only [hw, Bool.false_eq_true, if_false, Option.some.injEq, reduceCtorEq, false_iff]
      rintro ⟨rfl, h2⟩; exact hw h2

theorem option_all_iff {α : Type} (o : Option α) (p : α → Bool) : o.all p = true ↔ ∀ a, o = some a → p a = true := by
  cases o <;> simp

theorem option_isSome_iff {α : Type} (o : Option α) : o.isSome = true ↔ ∃ a, o = some a := by
  cases o <;> simp

theorem metasOk_iff (V : Values ν) {ms : Metas ν} (h : (ms.map Prod.fst).Nodup) : metasOk V ms = true ↔ Consistent V ms := by
  simp only [metasOk, Bool.and_eq_true, option_all_iff, Bool.not_eq_true', Consistent]
  constructor
  · rintro ⟨⟨h1, h2⟩, h3⟩
    refine ⟨?_, ?_, ?_⟩
    · intro d f hd hf td tf
      have e1 := (truthyAt_iff V h .default d).2 ⟨hd, td⟩
      have e2 := (truthyAt_iff V h .factory f).2 ⟨hf, tf⟩
      rw [e1, e2] at h1; cases h1
    · intro f hf tf; exact h2 f ((truthyAt_iff V h .factory f).2 ⟨hf, tf⟩)
    · intro v hv tv; exact h3 v ((truthyAt_iff V h .validator v).2 ⟨hv, tv⟩)
  · rintro ⟨h1, h2, h3⟩
    refine ⟨⟨?_, ?_⟩, ?_⟩
    · rw [Bool.eq_false_iff]
      intro hb
      rw [Bool.and_eq_true, option_isSome_iff, option_isSome_iff] at hb
      obtain ⟨⟨d, hd⟩, f, hf⟩ := hb
      have e1 := (truthyAt_iff V h .default d).1 hd
      have e2 := (truthyAt_iff V h .factory f).1 hf
      exact h1 d f e1.1 e2.1 e1.2 e2.2
    · intro f hf
      have := (truthyAt_iff V h .factory f).1 hf
      exact h2 f this.1 this.2
    · intro v hv
      have := (truthyAt_iff V h .validator v).1 hv
      exact h3 v this.1 this.2

theorem named_iff (V : Values ν) (vt : τ → Bool) (b : Option τ) {ms : Metas ν} (h : (ms.map Prod.fst).Nodup) :
    (nameOk V ms = true ∧ b.all vt = true) ↔ Named V vt b ms := by
  simp only [nameOk, option_all_iff, Named, get_iff h]

theorem mk_cases (V : Values ν) (vt : τ → Bool) (b : Option τ) (md args kw : Metas ν) :
    (((md ++ args ++ kw).map Prod.fst).Nodup ∧ Consistent V (md ++ args ++ kw) ∧ Named V vt b (md ++ args ++ kw) ∧
        mk V vt b md args kw = .ok ⟨b, md ++ args ++ kw⟩) ∨
    (((md ++ args ++ kw).map Prod.fst).Nodup ∧ ¬ Consistent V (md ++ args ++ kw) ∧ mk V vt b md args kw = .error .validation) ∨
    ((¬ ((md ++ args ++ kw).map Prod.fst).Nodup ∨ (((md ++ args ++ kw).map Prod.fst).Nodup ∧ Consistent V (md ++ args ++ kw) ∧ ¬ Named V vt b (md ++ args ++ kw))) ∧
        mk V vt b md args kw = .error .valueError) := by
  simp only [mk, prepare]
  by_cases h1 : noDup [] (md ++ args ++ kw) = true
  · have hn := ((noDup_iff _ _).1 h1).1
    rw [if_pos h1]
    by_cases h2 : metasOk V (md ++ args ++ kw) = true
    · have hc := (metasOk_iff V hn).1 h2
      rw [if_pos h2]
      simp only
      by_cases h3 : nameOk V (md ++ args ++ kw) = true
      · rw [if_pos h3]
        by_cases h4 : b.all vt = true
        · rw [if_pos h4]
          exact Or.inl ⟨hn, hc, (named_iff V vt b hn).1 ⟨h3, h4⟩, rfl⟩
        · rw [if_neg h4]
          exact Or.inr (Or.inr ⟨Or.inr ⟨hn, hc, fun h => h4 ((named_iff V vt b hn).2 h).2⟩, rfl⟩)
      · rw [if_neg h3]
        exact Or.inr (Or.inr ⟨Or.inr ⟨hn, hc, fun h => h3 ((named_iff V vt b hn).2 h).1⟩, rfl⟩)
    · rw [if_neg h2]
      exact Or.inr (Or.inl ⟨hn, fun h => h2 ((metasOk_iff V hn).2 h), rfl⟩)
  · rw [if_neg h1]
    exact Or.inr (Or.inr ⟨Or.inl (fun h => h1 ((noDup_iff _ _).2 ⟨h, by simp⟩)), rfl⟩)

/-! ## C222 -/

/-- C222: which specs can be made, and what they hold. -/
theorem C222_construct (V : Values ν) (vt : τ → Bool) (b : Option τ) (md args kw : Metas ν) (s : Spec ν τ) :
    mk V vt b md args kw = .ok s ↔ s = ⟨b, md ++ args ++ kw⟩ ∧ ((md ++ args ++ kw).map Prod.fst).Nodup ∧ Consistent V (md ++ args ++ kw) ∧
      Named V vt b (md ++ args ++ kw) := by
  constructor
  · intro h
    rcases mk_cases V vt b md args kw with ⟨h1, h2, h3, he⟩ | ⟨_, _, he⟩ | ⟨_, he⟩
    · rw [he] at h; exact ⟨(Except.ok.inj h).symm, h1, h2, h3⟩
    · rw [he] at h; cases h
    · rw [he] at h; cases h
  · rintro ⟨rfl, h1, h2, h3⟩
    rcases mk_cases V vt b md args kw with ⟨_, _, _, he⟩ | ⟨_, h, _⟩ | ⟨h | ⟨_, _, h⟩, _⟩
    · exact he
    · exact absurd h2 h
    · exact absurd h1 h
    · exact absurd h3 h

/-- C222: the others are refused: with an exception group if only the constraints on the common keys fail, else with
ValueError. -/
theorem C222_refused (V : Values ν) (vt : τ → Bool) (b : Option τ) (md args kw : Metas ν) (e : Exc) :
    mk V vt b md args kw = .error e ↔
      (e = .validation ∧ ((md ++ args ++ kw).map Prod.fst).Nodup ∧ ¬ Consistent V (md ++ args ++ kw)) ∨
      (e = .valueError ∧ (¬ ((md ++ args ++ kw).map Prod.fst).Nodup ∨ (Consistent V (md ++ args ++ kw) ∧ ¬ Named V vt b (md ++ args ++ kw)))) := by
  rcases mk_cases V vt b md args kw with ⟨h1, h2, h3, he⟩ | ⟨h1, h2, he⟩ | ⟨h, he⟩
  · rw [he]
    constructor
    · intro h; cases h
    · rintro (⟨-, -, h⟩ | ⟨-, h | ⟨-, h⟩⟩)
      · exact absurd h2 h
      · exact absurd h1 h
      · exact absurd h3 h
  · rw [he]
    constructor
    · intro h; exact Or.inl ⟨(Except.error.inj h).symm, h1, h2⟩
    · rintro (⟨rfl, -, h⟩ | ⟨rfl, h | ⟨h, -⟩⟩)
      · rfl
      · exact absurd h1 h
      · exact absurd h h2
  · rw [he]
    constructor
    · intro h'
      refine Or.inr ⟨(Except.error.inj h').symm, ?_⟩
      rcases h with h | ⟨_, h1, h2⟩
      · exact Or.inl h
      · exact Or.inr ⟨h1, h2⟩
    · rintro (⟨rfl, h1, h2⟩ | ⟨rfl, -⟩)
      · rcases h with h | ⟨_, h, -⟩
        · exact absurd h1 h
        · exact absurd h h2
      · rfl

/-- The entry a spec takes its default from: the default, else the factory. -/
def DefaultIs (s : Spec ν τ) (d : ν) : Prop :=
  (Key.default, d) ∈ s.metas ∨ ((∀ v, (Key.default, v) ∉ s.metas) ∧ (Key.factory, d) ∈ s.metas)

/-- The spec has a factory that is a function. -/
def HasFactory (V : Values ν) (s : Spec ν τ) : Prop := ∃ f, (Key.factory, f) ∈ s.metas ∧ V.callable f = true

/-- The spec has a factory that is an async function. -/
def HasAsync (V : Values ν) (s : Spec ν τ) : Prop := ∃ f, (Key.factory, f) ∈ s.metas ∧ V.callable f = true ∧ V.async f = true

theorem default_iff {s : Spec ν τ} (h : (s.metas.map Prod.fst).Nodup) (d : ν) : default s = some d ↔ DefaultIs s d := by
  unfold default DefaultIs
  cases hd : get s.metas .default with
  | some v =>
    have hv := (get_iff h .default v).1 hd
    simp only [Option.some.injEq]
    constructor
    · rintro rfl; exact Or.inl hv
    · rintro (h1 | ⟨h1, -⟩)
      · have := (get_iff h .default d).2 h1
        rw [hd] at this; exact Option.some.inj this
      · exact absurd hv (h1 v)
  | none =>
    have hno : ∀ v, (Key.default, v) ∉ s.metas := by
      intro v hv
      rw [(get_iff h .default v).2 hv] at hd; cases hd
    simp only [get_iff h]
    constructor
    · intro h1; exact Or.inr ⟨hno, h1⟩
    · rintro (h1 | ⟨-, h1⟩)
      · exact absurd h1 (hno d)
      · exact h1

theorem option_any_iff {α : Type} (o : Option α) (p : α → Bool) : o.any p = true ↔ ∃ a, o = some a ∧ p a = true := by
  cases o <;> simp

theorem hasFactory_iff (V : Values ν) {s : Spec ν τ} (h : (s.metas.map Prod.fst).Nodup) : hasFactory V s = true ↔ HasFactory V s := by
  simp only [hasFactory, option_any_iff, HasFactory, get_iff h]

theorem hasAsync_iff (V : Values ν) {s : Spec ν τ} (h : (s.metas.map Prod.fst).Nodup) : hasAsync V s = true ↔ HasAsync V s := by
  simp only [hasAsync, option_any_iff, HasAsync, get_iff h, Bool.and_eq_true]

/-- C222: `create_default_value()` returns the default if the spec has no factory, calls it if the spec has a factory that is not
async; anything else fails: ValueError without a default (or with the default Undefined) and for async factories,
TypeError if there is a function as factory besides a default that cannot be called. -/
theorem C222_default (V : Values ν) {s : Spec ν τ} (h : (s.metas.map Prod.fst).Nodup) (r : Except Exc (Created ν)) :
    createDefault V s = r ↔
      (∃ d, DefaultIs s d ∧ V.undefined d = false ∧
        ((¬ HasFactory V s ∧ r = .ok (.value d)) ∨ (HasFactory V s ∧ ¬ HasAsync V s ∧ V.callable d = true ∧ r = .ok (.called d)) ∨
         (HasFactory V s ∧ ¬ HasAsync V s ∧ V.callable d = false ∧ r = .error .typeError) ∨ (HasAsync V s ∧ r = .error .valueError))) ∨
      ((∀ d, DefaultIs s d → V.undefined d = true) ∧ r = .error .valueError) := by
  have haf : HasAsync V s → HasFactory V s := fun ⟨f, h1, h2, _⟩ => ⟨f, h1, h2⟩
  unfold createDefault
  cases hd : default s with
  | none =>
    have hno : ∀ d, ¬ DefaultIs s d := by
      intro d hdd
      rw [(default_iff h d).2 hdd] at hd; cases hd
    constructor
    · intro hr; exact Or.inr ⟨fun d hdd => absurd hdd (hno d), hr.symm⟩
    · rintro (⟨d, hdd, -⟩ | ⟨-, rfl⟩)
      · exact absurd hdd (hno d)
      · rfl
  | some d =>
    have hdd := (default_iff h d).1 hd
    have huniq : ∀ d', DefaultIs s d' → d' = d := by
      intro d' h'
      rw [(default_iff h d').2 h'] at hd; exact Option.some.inj hd
    simp only
    by_cases hu : V.undefined d = true
    · rw [if_pos hu]
      constructor
      · intro hr; exact Or.inr ⟨fun d' h' => by rw [huniq d' h']; exact hu, hr.symm⟩
      · rintro (⟨d', h', hx, -⟩ | ⟨-, rfl⟩)
        · rw [huniq d' h', hu] at hx; cases hx
        · rfl
    · rw [if_neg hu]
      have hu' : V.undefined d = false := by simpa using hu
      have hnot : ¬ (∀ d', DefaultIs s d' → V.undefined d' = true) := fun hall => hu (hall d hdd)
      by_cases ha : hasAsync V s = true
      · rw [if_pos ha]
        have hA := (hasAsync_iff V h).1 ha
        constructor
        · intro hr; exact Or.inl ⟨d, hdd, hu', Or.inr (Or.inr (Or.inr ⟨hA, hr.symm⟩))⟩
        · rintro (⟨d', h', -, ⟨h1, -⟩ | ⟨-, h1, -⟩ | ⟨-, h1, -⟩ | ⟨-, rfl⟩⟩ | ⟨h1, -⟩)
          · exact absurd (haf hA) h1
          · exact absurd hA h1
          · exact absurd hA h1
          · rfl
          · exact absurd h1 hnot
      · rw [if_neg ha]
        have hA : ¬ HasAsync V s := fun hx => ha ((hasAsync_iff V h).2 hx)
        by_cases hf : hasFactory V s = true
        · rw [if_pos hf]
          have hF := (hasFactory_iff V h).1 hf
          unfold call
          by_cases hc : V.callable d = true
          · rw [if_pos hc]
            constructor
            · intro hr; exact Or.inl ⟨d, hdd, hu', Or.inr (Or.inl ⟨hF, hA, hc, hr.symm⟩)⟩
            · rintro (⟨d', h', -, ⟨h1, -⟩ | ⟨-, -, -, rfl⟩ | ⟨-, -, h1, -⟩ | ⟨h1, -⟩⟩ | ⟨h1, -⟩)
              · exact absurd hF h1
              · rw [huniq d' h']
              · rw [huniq d' h', hc] at h1; cases h1
              · exact absurd h1 hA
              · exact absurd h1 hnot
          · rw [if_neg hc]
            constructor
            · intro hr; exact Or.inl ⟨d, hdd, hu', Or.inr (Or.inr (Or.inl ⟨hF, hA, by simpa using hc, hr.symm⟩))⟩
            · rintro (⟨d', h', -, ⟨h1, -⟩ | ⟨-, -, h1, -⟩ | ⟨-, -, -, rfl⟩ | ⟨h1, -⟩⟩ | ⟨h1, -⟩)
              · exact absurd hF h1
              · rw [huniq d' h'] at h1; exact absurd h1 hc
              · rfl
              · exact absurd h1 hA
              · exact absurd h1 hnot
        · rw [if_neg hf]
          have hF : ¬ HasFactory V s := fun hx => hf ((hasFactory_iff V h).2 hx)
          constructor
          · intro hr; exact Or.inl ⟨d, hdd, hu', Or.inl ⟨hF, hr.symm⟩⟩
          · rintro (⟨d', h', -, ⟨-, rfl⟩ | ⟨h1, -⟩ | ⟨h1, -⟩ | ⟨h1, -⟩⟩ | ⟨h1, -⟩)
            · rw [huniq d' h']
            · exact absurd h1 hF
            · exact absurd h1 hF
            · exact absurd h1 hA
            · exact absurd h1 hnot

/-- C222: `acreate_default_value()` calls the async factory, if that is the spec's default, and otherwise does what
`create_default_value()` does. -/
theorem C222_default_async (V : Values ν) {s : Spec ν τ} (h : (s.metas.map Prod.fst).Nodup) :
    (∀ f, (∀ v, (Key.default, v) ∉ s.metas) → (Key.factory, f) ∈ s.metas → V.callable f = true → V.async f = true → createDefaultAsync V s = .ok (.called f)) ∧
    (¬ HasAsync V s → createDefaultAsync V s = createDefault V s) := by
  constructor
  · intro f hno hf hc ha
    unfold createDefaultAsync
    rw [if_pos ((hasAsync_iff V h).2 ⟨f, hf, hc, ha⟩), (default_iff h f).2 (Or.inr ⟨hno, hf⟩)]
    simp only [call, hc, if_true]
  · intro hA
    unfold createDefaultAsync
    rw [if_neg (fun hx => hA ((hasAsync_iff V h).1 hx))]

/-- C222: `metadict` holds exactly the entries that are not excluded. -/
theorem C222_metadict (s : Spec ν τ) (ex : List Key) (c : Bool) (k : Key) (v : ν) :
    (k, v) ∈ metadict s ex c ↔ (k, v) ∈ s.metas ∧ k ∉ ex ∧ (c = true → ∃ n, k = .other n) := by
  have hk : k ∈ common ↔ ¬ ∃ n, k = .other n := by cases k <;> simp [common]
  simp only [metadict, List.mem_filter, List.mem_append, Bool.not_eq_true', decide_eq_false_iff_not, not_or]
  cases c with
  | false => simp
  | true => simp only [if_true, hk, Decidable.not_not, forall_const]; rw [Classical.not_not]

example : metadict (⟨some "int", [(.name, .str "x"), (.other "title", .str "X")]⟩ : Spec SV String) [] true = [(.other "title", .str "X")] := by decide
example : createDefaultAsync { demoV with async := fun _ => true } (⟨some "int", [(.factory, .fn 1)]⟩ : Spec SV String) = .ok (.called (.fn 1)) := by decide
example : createDefault { demoV with async := fun _ => true } (⟨some "int", [(.factory, .fn 1)]⟩ : Spec SV String) = .error .valueError := by decide

/-! ## C123: the exact rule -/

theorem mem_updated (V : Values ν) (ms : Metas ν) (k : Key) (v : ν) (hs : V.sentinel v = false) (k' : Key) (v' : ν) :
    (k', v') ∈ updated V ms [(k, v)] ↔ (k' ≠ k ∧ (k', v') ∈ ms) ∨ (k' = k ∧ v' = v) := by
  simp only [updated, List.map_cons, List.map_nil, List.mem_append, List.mem_filter, List.mem_singleton, Bool.not_eq_true', decide_eq_false_iff_not, Prod.mk.injEq]
  constructor
  · rintro (⟨h1, h2⟩ | ⟨⟨h1, h2⟩, -⟩)
    · exact Or.inl ⟨h2, h1⟩
    · exact Or.inr ⟨h1, h2⟩
  · rintro (⟨h1, h2⟩ | ⟨rfl, rfl⟩)
    · exact Or.inl ⟨h2, h1⟩
    · exact Or.inr ⟨⟨rfl, rfl⟩, hs⟩

theorem updated_nodup (V : Values ν) {ms : Metas ν} (h : (ms.map Prod.fst).Nodup) (k : Key) (v : ν) : ((updated V ms [(k, v)]).map Prod.fst).Nodup := by
  simp only [updated, List.map_append]
  rw [List.nodup_append]
  refine ⟨h.sublist (List.filter_sublist.map _), ?_, ?_⟩
  · exact List.Nodup.sublist (List.filter_sublist.map _) (by simp)
  · intro a ha b hb e
    subst e
    obtain ⟨m, hm, rfl⟩ := List.mem_map.1 ha
    obtain ⟨m', hm', he⟩ := List.mem_map.1 hb
    have h1 := (List.mem_filter.1 hm).2
    have h2 := (List.mem_filter.1 hm').1
    rw [List.mem_singleton] at h2
    subst h2
    simp at h1
    exact h1 he.symm

/-- C123, the exact rule: on a spec that can be made, `with_default(v)` succeeds and its default value is `v` (the call of `v`, if that is a function) exactly
if the spec has no entry of the other kind: no default for a function, no function as factory for anything else.
Functions are taken to be truthy, and async ones and sentinels are left out. -/
theorem C123_exact_partial (V : Values ν) (vt : τ → Bool) (s : Spec ν τ) (v : ν) (hwf : (s.metas.map Prod.fst).Nodup) (hcons : Consistent V s.metas)
    (hnamed : Named V vt s.base s.metas) (hfun : ∀ f, V.callable f = true → V.truthy f = true) (hs : V.sentinel v = false) (ha : V.async v = false) :
    (∃ s', withDefault V vt s v = .ok s' ∧ createDefault V s' = .ok (if V.callable v then .called v else .value v)) ↔
      if V.callable v then ∀ d, (Key.default, d) ∉ s.metas else ¬ HasFactory V s := by
  have hu : V.undefined v = false := by
    simp only [Values.sentinel, Bool.or_eq_false_iff] at hs; exact hs.1
  have hname : ∀ k : Key, k ≠ .name → Named V vt s.base (updated V s.metas [(k, v)]) := by
    intro k hk
    refine ⟨?_, hnamed.2⟩
    intro w hw
    rcases (mem_updated V s.metas k v hs .name w).1 hw with ⟨-, h⟩ | ⟨h, -⟩
    · exact hnamed.1 w h
    · exact absurd h.symm hk
  by_cases hc : V.callable v = true
  · simp only [withDefault, hc, if_true, withUpdates]
    have hmem := mem_updated V s.metas .factory v hs
    have hnod := updated_nodup V hwf .factory v
    constructor
    · rintro ⟨s', h1, h2⟩ d hd
      obtain ⟨rfl, hn, hco, -⟩ := (C222_construct V vt s.base _ [] [] s').1 h1
      simp only [List.append_nil] at hn hco h2
      have hd' : (Key.default, d) ∈ updated V s.metas [(.factory, v)] := (hmem _ _).2 (Or.inl ⟨by simp, hd⟩)
      have hF : (Key.factory, v) ∈ updated V s.metas [(.factory, v)] := (hmem _ _).2 (Or.inr ⟨rfl, rfl⟩)
      rcases (C222_default V hn _).1 h2 with ⟨d', hdi, -, h3 | h3 | h3 | h3⟩ | h3
      · exact h3.1 ⟨v, hF, hc⟩
      · have e : d' = d := by
          have hx := (default_iff (s := ⟨s.base, updated V s.metas [(.factory, v)]⟩) hn d').2 hdi
          have hy := (default_iff (s := ⟨s.base, updated V s.metas [(.factory, v)]⟩) hn d).2 (Or.inl hd')
          rw [hx] at hy; exact Option.some.inj hy
        subst e
        exact hco.1 d' v hd' hF (hfun _ h3.2.2.1) (hfun _ hc)
      · cases h3.2.2.2
      · cases h3.2
      · cases h3.2
    · intro hno
      have hno' : ∀ d, (Key.default, d) ∉ updated V s.metas [(.factory, v)] := by
        intro d hd
        rcases (hmem _ _).1 hd with ⟨-, h⟩ | ⟨h, -⟩
        · exact hno d h
        · cases h
      have hF : (Key.factory, v) ∈ updated V s.metas [(.factory, v)] := (hmem _ _).2 (Or.inr ⟨rfl, rfl⟩)
      have honly : ∀ f, (Key.factory, f) ∈ updated V s.metas [(.factory, v)] → f = v := by
        intro f hf
        rcases (hmem _ _).1 hf with ⟨h, -⟩ | ⟨-, h⟩
        · exact absurd rfl h
        · exact h
      have hco : Consistent V (updated V s.metas [(.factory, v)]) := by
        refine ⟨fun d f hd => absurd hd (hno' d), ?_, ?_⟩
        · intro f hf _; rw [honly f hf]; exact hc
        · intro w hw
          rcases (hmem _ _).1 hw with ⟨-, h⟩ | ⟨h, -⟩
          · exact hcons.2.2 w h
          · cases h
      refine ⟨⟨s.base, updated V s.metas [(.factory, v)]⟩, ?_, ?_⟩
      · exact (C222_construct V vt s.base _ [] [] _).2 ⟨by simp, by simpa using hnod, by simpa using hco, by simpa using hname .factory (by simp)⟩
      · refine (C222_default V (s := ⟨s.base, updated V s.metas [(.factory, v)]⟩) hnod _).2 (Or.inl ⟨v, Or.inr ⟨hno', hF⟩, hu, Or.inr (Or.inl ⟨⟨v, hF, hc⟩, ?_, hc, rfl⟩)⟩)
        rintro ⟨f, hf, -, hx⟩
        rw [honly f hf, ha] at hx; cases hx
  · simp only [withDefault, hc, Bool.false_eq_true, if_false, withUpdates]
    have hmem := mem_updated V s.metas .default v hs
    have hnod := updated_nodup V hwf .default v
    have hF : HasFactory V ⟨s.base, updated V s.metas [(.default, v)]⟩ ↔ HasFactory V s := by
      constructor
      · rintro ⟨f, hf, h2⟩
        rcases (hmem _ _).1 hf with ⟨-, h⟩ | ⟨h, -⟩
        · exact ⟨f, h, h2⟩
        · cases h
      · rintro ⟨f, hf, h2⟩
        exact ⟨f, (hmem _ _).2 (Or.inl ⟨by simp, hf⟩), h2⟩
    constructor
    · rintro ⟨s', h1, h2⟩ hfac
      obtain ⟨rfl, hn, hco, -⟩ := (C222_construct V vt s.base _ [] [] s').1 h1
      simp only [List.append_nil] at hn hco h2
      rcases (C222_default V hn _).1 h2 with ⟨d', hdi, -, h3 | h3 | h3 | h3⟩ | h3
      · exact h3.1 (hF.2 hfac)
      · cases h3.2.2.2
      · cases h3.2.2.2
      · cases h3.2
      · cases h3.2
    · intro hno
      have hco : Consistent V (updated V s.metas [(.default, v)]) := by
        refine ⟨?_, ?_, ?_⟩
        · intro d f _ hf _ htf
          rcases (hmem _ _).1 hf with ⟨-, h⟩ | ⟨h, -⟩
          · exact hno ⟨f, h, hcons.2.1 f h htf⟩
          · cases h
        · intro f hf
          rcases (hmem _ _).1 hf with ⟨-, h⟩ | ⟨h, -⟩
          · exact hcons.2.1 f h
          · cases h
        · intro w hw
          rcases (hmem _ _).1 hw with ⟨-, h⟩ | ⟨h, -⟩
          · exact hcons.2.2 w h
          · cases h
      refine ⟨⟨s.base, updated V s.metas [(.default, v)]⟩, ?_, ?_⟩
      · exact (C222_construct V vt s.base _ [] [] _).2 ⟨by simp, by simpa using hnod, by simpa using hco, by simpa using hname .default (by simp)⟩
      · exact (C222_default V (s := ⟨s.base, updated V s.metas [(.default, v)]⟩) hnod _).2
          (Or.inl ⟨v, Or.inl ((hmem _ _).2 (Or.inr ⟨rfl, rfl⟩)), hu, Or.inl ⟨fun h => hno (hF.1 h), rfl⟩⟩)

/-! ## C124: what the cache keeps -/

theorem cache_keeps {κ : Type} [DecidableEq κ] (V : Values ν) (keq : Spec ν τ → Spec ν τ → Bool) (key : Spec ν τ → κ)
    (hk : ∀ a b, keq a b = true ↔ key a = key b) (maxSize : Nat) (s : Spec ν τ) (D : List κ) (hD : D.length < maxSize) :
    ∀ (later : List (Spec ν τ)) (c pre post : Cache ν τ) (e : Spec ν τ × (Ty τ × Metas ν)), (∀ t ∈ later, key t ≠ key s → key t ∈ D) →
      c = pre ++ e :: post → key e.1 = key s → (∀ x ∈ post, key x.1 ∈ D) → (c.map (fun x => key x.1)).Nodup →
      ∃ x ∈ later.foldl (fun c s => (annotated V keq maxSize c s).2) c, x.2 = e.2 ∧ key x.1 = key s := by
  intro later
  induction later with
  | nil => intro c pre post e _ hc he _ _; exact ⟨e, by rw [hc]; simp, rfl, he⟩
  | cons t later ih =>
    intro c pre post e hl hc he hpost hn
    have hl' : ∀ t ∈ later, key t ≠ key s → key t ∈ D := fun t ht => hl t (List.mem_cons_of_mem _ ht)
    simp only [List.foldl_cons, annotated]
    cases hf : c.find? (fun x => keq x.1 t) with
    | some x =>
      have hx : key x.1 = key t := (hk _ _).1 (by have := List.find?_some hf; exact this)
      have hxm := List.mem_of_find?_eq_some hf
      simp only
      have hn' : ((c.eraseP (fun x => keq x.1 t) ++ [x]).map (fun x => key x.1)).Nodup := by
        rw [List.map_append, List.nodup_append]
        refine ⟨hn.sublist (List.eraseP_sublist.map _), by simp, ?_⟩
        intro a ha b hb
        obtain ⟨y, hy, rfl⟩ := List.mem_map.1 ha
        simp only [List.map_cons, List.map_nil, List.mem_singleton] at hb
        subst hb
        intro hyx
        -- the erased list has no entry with the key of `t`
        obtain ⟨z, l1, l2, h1, h2, h3, h4⟩ := List.exists_of_eraseP hxm (by exact List.find?_some hf)
        rw [h4] at hy
        rw [h3] at hn
        simp only [List.map_append, List.map_cons] at hn
        have hz : key z.1 = key t := (hk _ _).1 h2
        have hn2 := List.nodup_append.1 hn
        have hn3 := List.nodup_cons.1 hn2.2.1
        rcases List.mem_append.1 hy with h | h
        · exact hn2.2.2 _ (List.mem_map_of_mem h) _ List.mem_cons_self (by rw [hyx, hx, hz])
        · exact hn3.1 (List.mem_map.2 ⟨y, h, by rw [hyx, hx, hz]⟩)
      by_cases hts : key t = key s
      · -- the entry itself is moved to the end
        have hxe : x = e := by
          have h1 : c.find? (fun x => keq x.1 t) = some e := by
            rw [hc, List.find?_append]
            have hpre : pre.find? (fun x => keq x.1 t) = none := by
              rw [List.find?_eq_none]
              intro y hy hky
              have := (hk _ _).1 hky
              rw [hc] at hn
              simp only [List.map_append, List.map_cons] at hn
              exact (List.nodup_append.1 hn).2.2 _ (List.mem_map_of_mem hy) _ List.mem_cons_self (by rw [this, hts, he])
            have hke : keq e.1 t = true := (hk _ _).2 (by rw [he, hts])
            rw [hpre, Option.none_or, List.find?_cons, hke]
          rw [hf] at h1; exact Option.some.inj h1
        subst hxe
        exact ih _ (c.eraseP (fun x => keq x.1 t)) [] x hl' rfl he (by simp) hn'
      · have htD := hl t List.mem_cons_self hts
        -- the entry of `s` is not the one erased
        have hee : keq e.1 t = false := by
          rw [Bool.eq_false_iff]; intro h; exact hts (by rw [← (hk _ _).1 h, he])
        by_cases hpre : ∃ y ∈ pre, keq y.1 t = true
        · obtain ⟨y, hy, hky⟩ := hpre
          have : c.eraseP (fun x => keq x.1 t) ++ [x] = pre.eraseP (fun x => keq x.1 t) ++ e :: (post ++ [x]) := by
            rw [hc, List.eraseP_append_left (a := y) hky _ hy]; simp
          exact ih _ _ _ e hl' this he (by
            intro z hz
            rcases List.mem_append.1 hz with h | h
            · exact hpost z h
            · rw [List.mem_singleton.1 h, hx]; exact htD) hn'
        · have : c.eraseP (fun x => keq x.1 t) ++ [x] = pre ++ e :: (post.eraseP (fun x => keq x.1 t) ++ [x]) := by
            rw [hc, List.eraseP_append_right _ (by intro y hy h; exact hpre ⟨y, hy, h⟩), List.eraseP_cons_of_neg (by rw [hee]; simp)]; simp
          exact ih _ _ _ e hl' this he (by
            intro z hz
            rcases List.mem_append.1 hz with h | h
            · exact hpost z (List.mem_of_mem_eraseP h)
            · rw [List.mem_singleton.1 h, hx]; exact htD) hn'
    | none =>
      simp only
      have hts : key t ≠ key s := by
        intro h
        have := List.find?_eq_none.1 hf e (by rw [hc]; simp)
        exact this ((hk _ _).2 (by rw [he, h]))
      have htD := hl t List.mem_cons_self hts
      have hnc : ((c ++ [(t, fresh V t)]).map (fun x => key x.1)).Nodup := by
        rw [List.map_append, List.nodup_append]
        refine ⟨hn, by simp, ?_⟩
        intro a ha b hb hab
        obtain ⟨y, hy, rfl⟩ := List.mem_map.1 ha
        simp only [List.map_cons, List.map_nil, List.mem_singleton] at hb
        subst hb
        exact List.find?_eq_none.1 hf y hy ((hk _ _).2 hab)
      have hpost' : ∀ x ∈ post ++ [(t, fresh V t)], key x.1 ∈ D := by
        intro z hz
        rcases List.mem_append.1 hz with h | h
        · exact hpost z h
        · rw [List.mem_singleton.1 h]; exact htD
      have hform : c ++ [(t, fresh V t)] = pre ++ e :: (post ++ [(t, fresh V t)]) := by rw [hc]; simp
      have hlen : (post ++ [(t, fresh V t)]).length ≤ D.length := by
        have h1 : ((post ++ [(t, fresh V t)]).map (fun x => key x.1)).Nodup := by
          rw [hform, List.map_append, List.map_cons] at hnc
          exact (List.nodup_cons.1 (List.nodup_append.1 hnc).2.1).2
        have h2 : (post ++ [(t, fresh V t)]).map (fun x => key x.1) ⊆ D := by
          intro a ha
          obtain ⟨y, hy, rfl⟩ := List.mem_map.1 ha
          exact hpost' y hy
        have := length_le_of_nodup_subset h1 h2
        simpa using this
      have hdrop : evict maxSize (c ++ [(t, fresh V t)]) = pre.drop ((c ++ [(t, fresh V t)]).length - maxSize) ++ e :: (post ++ [(t, fresh V t)]) := by
        unfold evict
        generalize hm : (c ++ [(t, fresh V t)]).length - maxSize = m
        have hm2 : m ≤ pre.length := by
          rw [hform] at hm
          simp only [List.length_append, List.length_cons] at hm hlen
          omega
        rw [hform, List.drop_append_of_le_length hm2]
      exact ih _ _ _ e hl' hdrop he hpost' (by
        unfold evict
        exact hnc.sublist ((List.drop_sublist _ _).map _))

/-- C124: a type that was built stays in the cache, and is handed out again, as long as fewer different specs than the limit were
asked for since (`key` tells cache keys apart; `D` has the keys of the others). -/
theorem C124_kept {κ : Type} [DecidableEq κ] (V : Values ν) (keq : Spec ν τ → Spec ν τ → Bool) (key : Spec ν τ → κ)
    (hk : ∀ a b, keq a b = true ↔ key a = key b) (maxSize : Nat) (earlier later : List (Spec ν τ)) (s : Spec ν τ) (D : List κ) (hD : D.length < maxSize)
    (hl : ∀ t ∈ later, key t ≠ key s → key t ∈ D) :
    ∃ x ∈ afterCalls V keq maxSize (earlier ++ s :: later), key x.1 = key s ∧ x.2 = (annotated V keq maxSize (afterCalls V keq maxSize earlier) s).1 := by
  have hnod : ∀ (h : List (Spec ν τ)), ((afterCalls V keq maxSize h).map (fun x => key x.1)).Nodup := by
    have gen : ∀ (h : List (Spec ν τ)) (c : Cache ν τ), (c.map (fun x => key x.1)).Nodup →
        ((h.foldl (fun c s => (annotated V keq maxSize c s).2) c).map (fun x => key x.1)).Nodup := by
      intro h
      induction h with
      | nil => intro c hc; exact hc
      | cons t h ih =>
        intro c hc
        refine ih _ ?_
        simp only [annotated]
        cases hf : c.find? (fun x => keq x.1 t) with
        | some x =>
          have hx : key x.1 = key t := (hk _ _).1 (by have := List.find?_some hf; exact this)
          have hxm := List.mem_of_find?_eq_some hf
          simp only [List.map_append, List.map_cons, List.map_nil]
          rw [List.nodup_append]
          refine ⟨hc.sublist (List.eraseP_sublist.map _), by simp, ?_⟩
          intro a ha b hb hab
          obtain ⟨y, hy, rfl⟩ := List.mem_map.1 ha
          rw [List.mem_singleton] at hb
          subst hb
          obtain ⟨z, l1, l2, h1, h2, h3, h4⟩ := List.exists_of_eraseP hxm (by exact List.find?_some hf)
          rw [h4] at hy
          rw [h3] at hc
          simp only [List.map_append, List.map_cons] at hc
          have hz : key z.1 = key t := (hk _ _).1 h2
          have hn2 := List.nodup_append.1 hc
          have hn3 := List.nodup_cons.1 hn2.2.1
          rcases List.mem_append.1 hy with h | h
          · exact hn2.2.2 _ (List.mem_map_of_mem h) _ List.mem_cons_self (by rw [hab, hx, hz])
          · exact hn3.1 (List.mem_map.2 ⟨y, h, by rw [hab, hx, hz]⟩)
        | none =>
          unfold evict
          refine List.Nodup.sublist ((List.drop_sublist _ _).map _) ?_
          rw [List.map_append, List.nodup_append]
          refine ⟨hc, by simp, ?_⟩
          intro a ha b hb hab
          obtain ⟨y, hy, rfl⟩ := List.mem_map.1 ha
          simp only [List.map_cons, List.map_nil, List.mem_singleton] at hb
          subst hb
          exact List.find?_eq_none.1 hf y hy ((hk _ _).2 hab)
    intro h; exact gen h [] (by simp)
  have hfold : afterCalls V keq maxSize (earlier ++ s :: later) =
      later.foldl (fun c s => (annotated V keq maxSize c s).2) (annotated V keq maxSize (afterCalls V keq maxSize earlier) s).2 := by
    simp only [afterCalls, List.foldl_append, List.foldl_cons]
  have hnod1 : (((annotated V keq maxSize (afterCalls V keq maxSize earlier) s).2).map (fun x => key x.1)).Nodup := by
    have := hnod (earlier ++ [s])
    simpa only [afterCalls, List.foldl_append, List.foldl_cons, List.foldl_nil] using this
  -- right after the call, the entry is the last one of the cache
  have hlast : ∃ pre e, (annotated V keq maxSize (afterCalls V keq maxSize earlier) s).2 = pre ++ [e] ∧ key e.1 = key s ∧
      e.2 = (annotated V keq maxSize (afterCalls V keq maxSize earlier) s).1 := by
    simp only [annotated]
    cases hf : (afterCalls V keq maxSize earlier).find? (fun x => keq x.1 s) with
    | some x => exact ⟨_, x, rfl, (hk _ _).1 (by have := List.find?_some hf; exact this), rfl⟩
    | none =>
      refine ⟨(afterCalls V keq maxSize earlier).drop ((afterCalls V keq maxSize earlier ++ [(s, fresh V s)]).length - maxSize), (s, fresh V s), ?_, rfl, rfl⟩
      simp only [evict]
      rw [List.drop_append_of_le_length]
      simp only [List.length_append, List.length_singleton]
      omega
  obtain ⟨pre, e, h1, h2, h3⟩ := hlast
  obtain ⟨x, hx, hx2, hxk⟩ := cache_keeps V keq key hk maxSize s D hD later _ pre [] e hl h1 h2 (by simp) hnod1
  exact ⟨x, by rw [hfold]; exact hx, hxk, by rw [hx2, h3]⟩

example : afterCalls demoV (fun a b => decide (a = b)) 2 [⟨some "int", []⟩, ⟨some "str", []⟩, ⟨some "int", []⟩, ⟨some "float", []⟩] =
    [(⟨some "int", []⟩, (.base "int", [])), (⟨some "float", []⟩, (.base "float", []))] := by decide

end Verif.Spec
