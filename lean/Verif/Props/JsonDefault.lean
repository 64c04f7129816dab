import Verif.Model.JsonDefault

/-!
# C80, C135: custom JSON serializers
-/

set_option linter.unusedSectionVars false
set_option linter.unusedSimpArgs false
set_option linter.unusedVariables false

namespace Verif.JsonDefault

variable {τ σ : Type} [DecidableEq τ]

theorem search_split {T : Types τ} {ser : Dict τ σ} {typ : τ} {f : σ} {pre post : List τ} {t : τ} (hsub : T.sub typ t = true) (hf : ser.get? t = some f)
    (hpre : ∀ t' ∈ pre, T.sub typ t' = true → ser.get? t' = none) : search T ser typ (pre ++ t :: post) = some f := by
  induction pre with
  | nil => simp only [List.nil_append, search, if_pos hsub, hf]
  | cons p pre ih =>
    simp only [List.cons_append, search]
    have ih' := ih (fun t' ht' => hpre t' (List.mem_cons_of_mem _ ht'))
    split
    · next h => rw [hpre p List.mem_cons_self h]; exact ih'
    · exact ih'

theorem search_none {T : Types τ} {ser : Dict τ σ} {typ : τ} {l : List τ} (h : ∀ t ∈ l, T.sub typ t = true → ser.get? t = none) : search T ser typ l = none := by
  induction l with
  | nil => rfl
  | cons p l ih =>
    simp only [search]
    have ih' := ih (fun t' ht' => h t' (List.mem_cons_of_mem _ ht'))
    split
    · next hs => rw [h p List.mem_cons_self hs]; exact ih'
    · exact ih'

/-- Every cached choice is the one a fresh search makes. -/
def CacheOk (T : Types τ) (builtin : τ → σ) (a : Args τ σ) (c : Dict τ σ) : Prop :=
  ∀ t f, c.get? t = some f → search T (table T builtin a) t (orderOf T a) = some f

/-- The choice of a fresh search. -/
def fresh (T : Types τ) (builtin : τ → σ) (a : Args τ σ) (t : τ) : Choice σ := (default T builtin a [] t).1

theorem default_ok {T : Types τ} {builtin : τ → σ} {a : Args τ σ} {c : Dict τ σ} (hc : CacheOk T builtin a c) (t : τ) :
    (default T builtin a c t).1 = fresh T builtin a t ∧ CacheOk T builtin a (default T builtin a c t).2 := by
  unfold fresh default
  rw [Dict.get?_nil]
  simp only []
  cases h : c.get? t with
  | some f => rw [hc t f h]; exact ⟨rfl, hc⟩
  | none =>
    simp only []
    cases hs : search T (table T builtin a) t (orderOf T a) with
    | none => exact ⟨rfl, hc⟩
    | some f =>
      refine ⟨rfl, fun t' f' h' => ?_⟩
      simp only [] at h'
      rw [Dict.get?_set] at h'
      split at h'
      · next e => subst e; cases h'; exact hs
      · exact hc t' f' h'

theorem cacheOk_after (T : Types τ) (builtin : τ → σ) (a : Args τ σ) (hist : List τ) :
    ∀ c, CacheOk T builtin a c → CacheOk T builtin a (hist.foldl (fun c t => (default T builtin a c t).2) c) := by
  induction hist with
  | nil => intro c h; exact h
  | cons t hist ih => intro c h; exact ih _ (default_ok h t).2

/-- **C135** (history). The serializer chosen for a type does not depend on what was serialised before. -/
theorem C135_history (T : Types τ) (builtin : τ → σ) (a : Args τ σ) (hist : List τ) (t : τ) :
    (default T builtin a (cacheAfter T builtin a hist) t).1 = fresh T builtin a t :=
  (default_ok (cacheOk_after T builtin a hist [] (by intro t f h; cases h)) t).1

theorem get?_table_additional (T : Types τ) (builtin : τ → σ) (a : Args τ σ) (hwf : a.additional.WF) {t : τ} {f : σ} (h : a.additional.get? t = some f) :
    (table T builtin a).get? t = some f := by
  unfold table
  rw [Dict.get?_update hwf, h]; rfl

theorem mem_split {l : List τ} {t : τ} (h : t ∈ l) : ∃ pre post, l = pre ++ t :: post ∧ t ∉ pre := by
  induction l with
  | nil => cases h
  | cons x l ih =>
    by_cases e : x = t
    · exact ⟨[], l, by rw [e]; rfl, by simp⟩
    · rcases List.mem_cons.1 h with h | h
      · exact absurd h.symm e
      · obtain ⟨pre, post, h1, h2⟩ := ih h
        exact ⟨x :: pre, post, by rw [h1]; rfl, by simp [h2, Ne.symm e]⟩

/-- **C80** (partial). Let a serializer `f` be registered for `t`, let `t` be listed in `order` and not be native. Then `f` is used for every object whose type is a subclass of `t` but of no built-in handled type and of no other listed type — after any history. Missing: types not listed in `order`, and types that also match another entry; see the violations. -/
theorem C80_registered_partial (T : Types τ) (builtin : τ → σ) (a : Args τ σ) (hist : List τ) (hwf : a.additional.WF) (o : List τ) (ho : a.order = some o)
    (t : τ) (ht : t ∈ o) (hnat : t ∉ T.native) (f : σ) (hf : a.additional.get? t = some f) (typ : τ) (hsub : T.sub typ t = true)
    (hother : ∀ t' ∈ baseOrder T a ++ o, T.sub typ t' = true → t' = t) :
    (default T builtin a (cacheAfter T builtin a hist) typ).1 = .serializer f := by
  rw [C135_history]
  have hfull : t ∈ fullOrder T a ∧ ∀ t' ∈ fullOrder T a, t' ∈ baseOrder T a ++ o := by
    unfold fullOrder
    rw [ho]
    cases o with
    | nil => cases ht
    | cons o1 os =>
      simp only []
      split
      · constructor
        · by_cases hb : t ∈ baseOrder T a
          · exact List.mem_append.2 (Or.inl hb)
          · exact List.mem_append.2 (Or.inr (List.mem_filter.2 ⟨ht, by simpa using hb⟩))
        · intro t' h'
          rcases List.mem_append.1 h' with h' | h'
          · exact List.mem_append.2 (Or.inl h')
          · exact List.mem_append.2 (Or.inr (List.mem_filter.1 h').1)
      · exact ⟨ht, fun t' h' => List.mem_append.2 (Or.inr h')⟩
  have hord : t ∈ orderOf T a ∧ ∀ t' ∈ orderOf T a, t' ∈ baseOrder T a ++ o := by
    unfold orderOf
    split
    · exact hfull
    · exact ⟨List.mem_filter.2 ⟨hfull.1, by simpa using hnat⟩, fun t' h' => hfull.2 t' (List.mem_filter.1 h').1⟩
  obtain ⟨pre, post, h1, h2⟩ := mem_split hord.1
  have hs : search T (table T builtin a) typ (orderOf T a) = some f := by
    rw [h1]
    apply search_split hsub (get?_table_additional T builtin a hwf hf)
    intro t' ht' hst
    have := hother t' (hord.2 t' (by rw [h1]; exact List.mem_append.2 (Or.inl ht'))) hst
    exact absurd (this ▸ ht') h2
  unfold fresh default
  rw [Dict.get?_nil]
  simp only [hs]

/-- **C80** (built-in types). A serializer registered for one of the built-in handled types replaces the built-in one. -/
theorem C80_override (T : Types τ) (builtin : τ → σ) (a : Args τ σ) (hist : List τ) (hwf : a.additional.WF) (ho : a.order = none) (f : σ)
    (hf : a.additional.get? T.set = some f) (hnat : T.set ∉ T.native) (typ : τ) (hsub : T.sub typ T.set = true)
    (hother : ∀ t' ∈ baseOrder T a, T.sub typ t' = true → t' = T.set) :
    (default T builtin a (cacheAfter T builtin a hist) typ).1 = .serializer f := by
  rw [C135_history]
  have hmem : T.set ∈ baseOrder T a := by
    unfold baseOrder
    exact List.mem_append.2 (Or.inr (by simp))
  have hfull : fullOrder T a = baseOrder T a := by unfold fullOrder; rw [ho]
  have hord : T.set ∈ orderOf T a ∧ ∀ t' ∈ orderOf T a, t' ∈ baseOrder T a := by
    unfold orderOf
    rw [hfull]
    split
    · exact ⟨hmem, fun _ h => h⟩
    · exact ⟨List.mem_filter.2 ⟨hmem, by simpa using hnat⟩, fun t' h' => (List.mem_filter.1 h').1⟩
  obtain ⟨pre, post, h1, h2⟩ := mem_split hord.1
  have hs : search T (table T builtin a) typ (orderOf T a) = some f := by
    rw [h1]
    apply search_split hsub (get?_table_additional T builtin a hwf hf)
    intro t' ht' hst
    have := hother t' (hord.2 t' (by rw [h1]; exact List.mem_append.2 (Or.inl ht'))) hst
    exact absurd (this ▸ ht') h2
  unfold fresh default
  rw [Dict.get?_nil]
  simp only [hs]

/-- **C80** (what happens instead). A type that is neither a built-in handled type nor listed in `order` is never looked up: for objects of a type related to no listed type, the registered serializer is ignored. -/
theorem C80_unlisted_ignored (T : Types τ) (builtin : τ → σ) (a : Args τ σ) (hist : List τ) (typ : τ) (h : ∀ t' ∈ orderOf T a, T.sub typ t' = false) :
    (default T builtin a (cacheAfter T builtin a hist) typ).1 = .fallback := by
  rw [C135_history]
  have hs : search T (table T builtin a) typ (orderOf T a) = none := search_none (fun t ht hst => by rw [h t ht] at hst; cases hst)
  unfold fresh default
  rw [Dict.get?_nil]
  simp only [hs]

/-! ### The exact choice -/

/-- The types with a built-in serializer, most important first: date times (if asked for), enumerations (if written by name), then paths, decimals, sets
and frozen sets. -/
inductive Builtins (T : Types τ) (a : Args τ σ) : List τ → Prop where
  | plain (h1 : a.passthroughDatetime = false) (h2 : a.enumAsName = false) : Builtins T a [T.path, T.decimal, T.set, T.frozenset]
  | enum (h1 : a.passthroughDatetime = false) (h2 : a.enumAsName = true) : Builtins T a [T.enum, T.path, T.decimal, T.set, T.frozenset]
  | date (h1 : a.passthroughDatetime = true) (h2 : a.enumAsName = false) : Builtins T a [T.datetime, T.path, T.decimal, T.set, T.frozenset]
  | both (h1 : a.passthroughDatetime = true) (h2 : a.enumAsName = true) :
      Builtins T a [T.datetime, T.enum, T.path, T.decimal, T.set, T.frozenset]

/-- The serializer for exactly the type `t`: the additional one, else the built-in one. -/
def Serializer (T : Types τ) (builtin : τ → σ) (a : Args τ σ) (t : τ) (f : σ) : Prop :=
  a.additional.get? t = some f ∨ (a.additional.get? t = none ∧ (∃ bs, Builtins T a bs ∧ t ∈ bs) ∧ f = builtin t)

/-- The types tried, in order: the built-in ones and then the listed ones, or only the listed ones if `extend_default` is off (an empty list counts
as none). -/
inductive Listed (T : Types τ) (a : Args τ σ) : List τ → Prop where
  | default (bs : List τ) (hb : Builtins T a bs) (ho : a.order = none ∨ a.order = some []) : Listed T a bs
  | extended (bs o : List τ) (hb : Builtins T a bs) (ho : a.order = some o) (hne : o ≠ []) (he : a.extendDefault = true) : Listed T a (bs ++ o)
  | only (o : List τ) (ho : a.order = some o) (hne : o ≠ []) (he : a.extendDefault = false) : Listed T a o

/-- `f` is the serializer of the first type among `l` that is a superclass of `typ`, has a serializer and is not left to orjson. -/
def First (T : Types τ) (builtin : τ → σ) (a : Args τ σ) (typ : τ) (l : List τ) (f : σ) : Prop :=
  ∃ pre t post, l = pre ++ t :: post ∧ T.sub typ t = true ∧ (a.passthroughDatetime = true ∨ t ∉ T.native) ∧ Serializer T builtin a t f ∧
    ∀ t' ∈ pre, T.sub typ t' = true → (a.passthroughDatetime = true ∨ t' ∉ T.native) → ∀ g, ¬ Serializer T builtin a t' g

theorem builtins_iff (T : Types τ) (a : Args τ σ) (bs : List τ) : Builtins T a bs ↔ bs = baseOrder T a := by
  unfold baseOrder
  constructor
  · rintro (⟨h1, h2⟩ | ⟨h1, h2⟩ | ⟨h1, h2⟩ | ⟨h1, h2⟩) <;> rw [h1, h2] <;> rfl
  · rintro rfl
    cases h1 : a.passthroughDatetime <;> cases h2 : a.enumAsName
    · exact .plain h1 h2
    · exact .enum h1 h2
    · exact .date h1 h2
    · exact .both h1 h2

theorem get?_defaults (T : Types τ) (builtin : τ → σ) (a : Args τ σ) (t : τ) :
    (defaultSerializers T builtin a).get? t = if t ∈ baseOrder T a then some (builtin t) else none := by
  have hb : ∀ (e : τ), Dict.get? [(T.path, builtin T.path), (T.decimal, builtin T.decimal), (T.set, builtin T.set), (T.frozenset, builtin T.frozenset)] e =
      if e ∈ [T.path, T.decimal, T.set, T.frozenset] then some (builtin e) else none := by
    intro e
    simp only [Dict.get?, List.mem_cons, List.not_mem_nil, or_false]
    grind
  unfold defaultSerializers baseOrder
  simp only []
  cases h1 : a.passthroughDatetime <;> cases h2 : a.enumAsName <;>
    simp only [Dict.get?_set, hb, if_true, if_false, Bool.false_eq_true, List.nil_append, List.singleton_append, List.mem_cons] <;> grind

theorem serializer_iff (T : Types τ) (builtin : τ → σ) (a : Args τ σ) (hwf : a.additional.WF) (t : τ) (f : σ) :
    Serializer T builtin a t f ↔ (table T builtin a).get? t = some f := by
  have hb : (∃ bs, Builtins T a bs ∧ t ∈ bs) ↔ t ∈ baseOrder T a :=
    ⟨fun ⟨bs, h, hm⟩ => (builtins_iff T a bs).1 h ▸ hm, fun h => ⟨_, (builtins_iff T a _).2 rfl, h⟩⟩
  unfold Serializer table
  rw [Dict.get?_update hwf, get?_defaults, hb]
  cases a.additional.get? t with
  | some g => simp
  | none =>
    by_cases h : t ∈ baseOrder T a
    · simp [h, eq_comm]
    · simp [h]

theorem search_some {T : Types τ} {ser : Dict τ σ} {typ : τ} {f : σ} {l : List τ} (h : search T ser typ l = some f) :
    ∃ pre t post, l = pre ++ t :: post ∧ T.sub typ t = true ∧ ser.get? t = some f ∧ ∀ t' ∈ pre, T.sub typ t' = true → ser.get? t' = none := by
  induction l with
  | nil => cases h
  | cons p l ih =>
    simp only [search] at h
    by_cases hs : T.sub typ p = true
    · rw [if_pos hs] at h
      cases hg : ser.get? p with
      | some g =>
        rw [hg] at h
        cases h
        exact ⟨[], p, l, rfl, hs, hg, fun t' ht' => (by cases ht')⟩
      | none =>
        rw [hg] at h
        obtain ⟨pre, t, post, e, h1, h2, h3⟩ := ih h
        refine ⟨p :: pre, t, post, by rw [e]; rfl, h1, h2, fun t' ht' hst => ?_⟩
        rcases List.mem_cons.1 ht' with rfl | ht'
        · exact hg
        · exact h3 t' ht' hst
    · rw [if_neg hs] at h
      obtain ⟨pre, t, post, e, h1, h2, h3⟩ := ih h
      refine ⟨p :: pre, t, post, by rw [e]; rfl, h1, h2, fun t' ht' hst => ?_⟩
      rcases List.mem_cons.1 ht' with rfl | ht'
      · exact absurd hst hs
      · exact h3 t' ht' hst

/-- Elements that come earlier already do not matter. -/
theorem search_append_filter (T : Types τ) (ser : Dict τ σ) (typ : τ) (bs o : List τ) :
    search T ser typ (bs ++ o.filter (fun t => !bs.contains t)) = search T ser typ (bs ++ o) := by
  cases hs : search T ser typ (bs ++ o) with
  | none =>
    apply search_none
    intro t ht hst
    cases hg : ser.get? t with
    | none => rfl
    | some g =>
      have hm : t ∈ bs ++ o := by
        rcases List.mem_append.1 ht with h | h
        · exact List.mem_append_left _ h
        · exact List.mem_append_right _ (List.mem_filter.1 h).1
      obtain ⟨pre, post, e, hn⟩ := List.append_of_mem hm |>.elim fun pre h => h.elim fun post e => (⟨pre, post, e, trivial⟩ : ∃ pre post, bs ++ o = pre ++ t :: post ∧ True)
      rw [e] at hs
      exfalso
      clear e hn hm
      induction pre with
      | nil => simp only [List.nil_append, search, if_pos hst, hg] at hs; cases hs
      | cons p pre ih =>
        simp only [List.cons_append, search] at hs
        by_cases hp : T.sub typ p = true
        · rw [if_pos hp] at hs
          cases hgp : ser.get? p with
          | some g => rw [hgp] at hs; cases hs
          | none => rw [hgp] at hs; exact ih hs
        · rw [if_neg hp] at hs; exact ih hs
  | some f =>
    obtain ⟨pre, t, post, e, h1, h2, h3⟩ := search_some hs
    rcases List.append_eq_append_iff.1 e with ⟨as, e1, e2⟩ | ⟨cs, e1, e2⟩
    · -- the winner is listed
      by_cases hb : t ∈ bs
      · have : ser.get? t = none := h3 t (by rw [e1]; exact List.mem_append_left _ hb) h1
        rw [h2] at this; cases this
      · rw [e2, List.filter_append, List.filter_cons, if_pos (by simp [hb]), ← List.append_assoc]
        apply search_split h1 h2
        intro t' ht' hst
        apply h3 t' _ hst
        rw [e1]
        rcases List.mem_append.1 ht' with h | h
        · exact List.mem_append_left _ h
        · exact List.mem_append_right _ (List.mem_filter.1 h).1
    · cases cs with
      | nil =>
        simp at e1 e2
        subst e1
        rw [← e2, List.filter_cons]
        by_cases hb : t ∈ bs
        · have : ser.get? t = none := h3 t hb h1
          rw [h2] at this; cases this
        · rw [if_pos (by simp [hb])]
          exact search_split h1 h2 h3
      | cons c cs =>
        simp at e2
        obtain ⟨rfl, e2⟩ := e2
        rw [e1, List.append_assoc, List.cons_append]
        exact search_split h1 h2 h3

theorem search_filter (T : Types τ) (ser : Dict τ σ) (typ : τ) (p : τ → Bool) (l : List τ) (f : σ) :
    search T ser typ (l.filter p) = some f ↔
    ∃ pre t post, l = pre ++ t :: post ∧ T.sub typ t = true ∧ p t = true ∧ ser.get? t = some f ∧
      ∀ t' ∈ pre, T.sub typ t' = true → p t' = true → ser.get? t' = none := by
  constructor
  · intro h
    obtain ⟨pre, t, post, e, h1, h2, h3⟩ := search_some h
    obtain ⟨l1, l2, rfl, e1, e2⟩ := List.filter_eq_append_iff.1 e
    obtain ⟨l3, l4, rfl, e3, e4, e5⟩ := List.filter_eq_cons_iff.1 e2
    refine ⟨l1 ++ l3, t, l4, by simp, h1, e4, h2, fun t' ht' hst hp => ?_⟩
    rcases List.mem_append.1 ht' with h | h
    · exact h3 t' (by rw [← e1]; exact List.mem_filter.2 ⟨h, hp⟩) hst
    · exact absurd hp (e3 t' h)
  · rintro ⟨pre, t, post, rfl, h1, hp, h2, h3⟩
    rw [List.filter_append, List.filter_cons, if_pos hp]
    apply search_split h1 h2
    intro t' ht' hst
    exact h3 t' (List.mem_filter.1 ht').1 hst (List.mem_filter.1 ht').2

theorem listed_search (T : Types τ) (ser : Dict τ σ) (a : Args τ σ) (typ : τ) (l : List τ) (hl : Listed T a l) (p : τ → Bool) (f : σ) :
    search T ser typ ((fullOrder T a).filter p) = some f ↔ search T ser typ (l.filter p) = some f := by
  cases hl with
  | default bs hb ho =>
    rw [(builtins_iff T a _).1 hb]
    unfold fullOrder
    rcases ho with ho | ho <;> rw [ho]
  | only o ho hne he =>
    unfold fullOrder
    rw [ho]
    cases l with
    | nil => exact absurd rfl hne
    | cons c o => simp only [he]; exact Iff.rfl
  | extended bs o hb ho hne he =>
    rw [(builtins_iff T a _).1 hb]
    unfold fullOrder
    rw [ho]
    cases o with
    | nil => exact absurd rfl hne
    | cons c o =>
      simp only [he, if_true]
      have : ((c :: o).filter (fun t => !(baseOrder T a).contains t)).filter p =
          ((c :: o).filter p).filter (fun t => !((baseOrder T a).filter p).contains t) := by
        rw [List.filter_filter, List.filter_filter]
        apply List.filter_congr
        intro t _
        cases hp : p t <;> simp [hp, List.mem_filter]
      rw [List.filter_append, this, search_append_filter, ← List.filter_append]

/-- **C80** (partial, exact). The serializer used for an object, whatever was serialised before: that of the first type, in the order built-in types
(date times, enumerations, paths, decimals, sets, frozen sets) then listed types, or listed types only, that is a superclass, has a serializer (an
additional one replaces a built-in one) and is not handled by orjson itself (date times and UUIDs unless passed through).  If there is none, no
serializer is used. -/
theorem C80_exact_partial (T : Types τ) (builtin : τ → σ) (a : Args τ σ) (hist : List τ) (hwf : a.additional.WF) (typ : τ) (l : List τ)
    (hl : Listed T a l) :
    (∀ f, (default T builtin a (cacheAfter T builtin a hist) typ).1 = .serializer f ↔ First T builtin a typ l f) ∧
    ((default T builtin a (cacheAfter T builtin a hist) typ).1 = .fallback ↔ ∀ f, ¬ First T builtin a typ l f) := by
  rw [C135_history]
  have key : ∀ f, search T (table T builtin a) typ (orderOf T a) = some f ↔ First T builtin a typ l f := by
    intro f
    have e : orderOf T a = (fullOrder T a).filter (fun t => a.passthroughDatetime || !T.native.contains t) := by
      unfold orderOf
      cases a.passthroughDatetime
      · rfl
      · rw [if_pos rfl]
        exact (List.filter_eq_self.2 (fun _ _ => rfl)).symm
    have hp : ∀ t, (a.passthroughDatetime || !T.native.contains t) = true ↔ a.passthroughDatetime = true ∨ t ∉ T.native := by
      intro t
      simp
    have hn : ∀ t, (table T builtin a).get? t = none ↔ ∀ g, ¬ Serializer T builtin a t g := by
      intro t
      constructor
      · intro h g hg
        rw [serializer_iff T builtin a hwf, h] at hg; cases hg
      · intro h
        cases hg : (table T builtin a).get? t with
        | none => rfl
        | some g => exact absurd ((serializer_iff T builtin a hwf t g).2 hg) (h g)
    rw [e, listed_search T _ a typ l hl, search_filter]
    unfold First
    constructor
    · rintro ⟨pre, t, post, e, h1, h2, h3, h4⟩
      exact ⟨pre, t, post, e, h1, (hp t).1 h2, (serializer_iff T builtin a hwf t f).2 h3, fun t' ht' hs hv => (hn t').1 (h4 t' ht' hs ((hp t').2 hv))⟩
    · rintro ⟨pre, t, post, e, h1, h2, h3, h4⟩
      exact ⟨pre, t, post, e, h1, (hp t).2 h2, (serializer_iff T builtin a hwf t f).1 h3, fun t' ht' hs hv => (hn t').2 (h4 t' ht' hs ((hp t').1 hv))⟩
  have hc : fresh T builtin a typ = match search T (table T builtin a) typ (orderOf T a) with
      | some f => .serializer f
      | none => .fallback := by
    unfold fresh default
    rw [Dict.get?_nil]
    simp only []
    cases search T (table T builtin a) typ (orderOf T a) <;> rfl
  rw [hc]
  cases hs : search T (table T builtin a) typ (orderOf T a) with
  | none =>
    refine ⟨fun f => ⟨fun h => (by cases h), fun h => ?_⟩, fun _ f h => ?_, fun _ => rfl⟩
    · rw [← key f, hs] at h; cases h
    · rw [← key f, hs] at h; cases h
  | some g =>
    refine ⟨fun f => ⟨fun h => ?_, fun h => ?_⟩, fun h => (by cases h), fun h => absurd ((key g).1 hs) (h g)⟩
    · cases h; exact (key g).1 hs
    · rw [← key f, hs] at h; cases h; rfl

/-- Some list of types is tried. -/
theorem listed_exists (T : Types τ) (a : Args τ σ) : ∃ l, Listed T a l := by
  have hb := (builtins_iff T a _).2 rfl
  cases ho : a.order with
  | none => exact ⟨_, .default _ hb (Or.inl ho)⟩
  | some o =>
    by_cases hne : o = []
    · subst hne; exact ⟨_, .default _ hb (Or.inr ho)⟩
    · cases he : a.extendDefault with
      | true => exact ⟨_, .extended _ o hb ho hne he⟩
      | false => exact ⟨o, .only o ho hne he⟩

/-! ### Concrete types -/

/-- Types: `path` and its subclass `myPath`, the other built-ins, a date time, and an unrelated class `mine`. -/
inductive Ty where
  | path | myPath | decimal | set | frozenset | enum | datetime | mine
  deriving DecidableEq

def sampleTypes : Types Ty where
  sub a b := a = b || (a = .myPath && b = .path)
  path := .path
  decimal := .decimal
  set := .set
  frozenset := .frozenset
  enum := .enum
  datetime := .datetime
  native := [.datetime]

/-- **C80** (violation). A serializer passed only through `additional` is not used; and one for a subclass of `Path` is not used even when the subclass is listed in `order`: the built-in one for `Path` wins. -/
theorem C80_unlisted_violation :
    (default sampleTypes (fun _ => 0) { additional := [(.mine, 1)] } [] .mine).1 = .fallback ∧
    (default sampleTypes (fun _ => 0) { additional := [(.myPath, 1)], order := some [.myPath] } [] .myPath).1 = .serializer 0 := by decide

example : (default sampleTypes (fun _ => 0) { additional := [(.mine, 1)], order := some [.mine] } [] .mine).1 = .serializer 1 ∧
    (∀ t' ∈ baseOrder sampleTypes ({ additional := [(.mine, 1)], order := some [.mine] } : Args Ty Nat) ++ [.mine], sampleTypes.sub .mine t' = true → t' = .mine) := by decide

example : (default sampleTypes (fun _ => 0) { additional := [(.set, 1)] } [] .set).1 = .serializer 1 := by decide

end Verif.JsonDefault
