import Verif.Model.JsonCached
import Verif.Props.JsonDefault

set_option linter.unusedSectionVars false
set_option linter.unusedSimpArgs false
set_option linter.unusedVariables false

/-!
# C323: what the JSON functions do with an object depends on its type and the flags of the call only
-/

namespace Verif.JsonCached

open JsonDefault (Types Args Choice)

variable {τ σ : Type} [DecidableEq τ]

/-! ### Specification -/

/-- The types with a serializer of their own, in the order in which they are tried: datetimes if they are passed through, enumerations if written by name, then paths, decimals and sets.
Types that orjson writes itself are left out, unless datetimes are passed through. -/
def tried (T : Types τ) (f : Flags) : List τ :=
  ((if f.passthroughDatetime then [T.datetime] else []) ++ (if f.enumAsName then [T.enum] else []) ++ [T.path, T.decimal, T.set, T.frozenset]).filter
    (fun t => f.passthroughDatetime || !T.native.contains t)

/-- What is to happen with an object of type `t` in a call with flags `f`. -/
inductive Handled (T : Types τ) (builtin : Flags → τ → σ) (f : Flags) (t : τ) : Reply σ → Prop where
  | first (pre post : List τ) (u : τ) : tried T f = pre ++ u :: post → (∀ v ∈ pre, T.sub t v = false) → T.sub t u = true → Handled T builtin f t (.by_ (builtin f u))
  | other : (∀ v ∈ tried T f, T.sub t v = false) → Handled T builtin f t (.duck f.safeFallback f.fallbackClip)

/-! ### Lemmas -/

theorem orderOf_tried (T : Types τ) (f : Flags) : JsonDefault.orderOf T (argsOf f : Args τ σ) = tried T f := by
  unfold JsonDefault.orderOf JsonDefault.fullOrder JsonDefault.baseOrder tried argsOf
  by_cases h : f.passthroughDatetime = true
  · by_cases he : f.enumAsName = true <;> simp [h, he]
  · have h' : f.passthroughDatetime = false := by simpa using h
    simp [h']

theorem table_tried (T : Types τ) (b : τ → σ) (f : Flags) (u : τ) (hu : u ∈ tried T f) : (JsonDefault.table T b (argsOf f)).get? u = some (b u) := by
  have h1 : u ∈ ((if f.passthroughDatetime then [T.datetime] else []) ++ (if f.enumAsName then [T.enum] else []) ++ [T.path, T.decimal, T.set, T.frozenset]) :=
    (List.mem_filter.1 hu).1
  have hb : u = T.path ∨ u = T.decimal ∨ u = T.set ∨ u = T.frozenset →
      Dict.get? [(T.path, b T.path), (T.decimal, b T.decimal), (T.set, b T.set), (T.frozenset, b T.frozenset)] u = some (b u) := by
    intro h
    simp only [Dict.get?_cons, Dict.get?_nil]
    by_cases e1 : T.path = u
    · rw [if_pos e1, e1]
    · rw [if_neg e1]
      by_cases e2 : T.decimal = u
      · rw [if_pos e2, e2]
      · rw [if_neg e2]
        by_cases e3 : T.set = u
        · rw [if_pos e3, e3]
        · rw [if_neg e3]
          by_cases e4 : T.frozenset = u
          · rw [if_pos e4, e4]
          · rcases h with h | h | h | h <;> exact absurd h.symm (by assumption)
  unfold JsonDefault.table JsonDefault.defaultSerializers
  show Dict.get? (Dict.update _ []) u = _
  have hup : ∀ d : Dict τ σ, Dict.update d [] = d := fun _ => rfl
  rw [hup]
  simp only [argsOf]
  simp only [List.mem_append, List.mem_cons, List.not_mem_nil, or_false] at h1
  by_cases hp : f.passthroughDatetime = true
  · simp only [hp, if_true, List.mem_cons, List.not_mem_nil, or_false] at h1 ⊢
    rw [Dict.get?_set]
    by_cases e : T.datetime = u
    · rw [if_pos e, e]
    · rw [if_neg e]
      by_cases he : f.enumAsName = true
      · simp only [he, if_true, List.mem_cons, List.not_mem_nil, or_false] at h1 ⊢
        rw [Dict.get?_set]
        by_cases e' : T.enum = u
        · rw [if_pos e', e']
        · rw [if_neg e']
          rcases h1 with (h1 | h1) | h1
          · exact absurd h1.symm e
          · exact absurd h1.symm e'
          · exact hb h1
      · simp only [he, Bool.false_eq_true, if_false, List.not_mem_nil, or_false] at h1 ⊢
        rcases h1 with h1 | h1
        · exact absurd h1.symm e
        · exact hb h1
  · simp only [hp, Bool.false_eq_true, if_false, List.not_mem_nil, false_or] at h1 ⊢
    by_cases he : f.enumAsName = true
    · simp only [he, if_true, List.mem_cons, List.not_mem_nil, or_false] at h1 ⊢
      rw [Dict.get?_set]
      by_cases e' : T.enum = u
      · rw [if_pos e', e']
      · rw [if_neg e']
        rcases h1 with h1 | h1
        · exact absurd h1.symm e'
        · exact hb h1
    · simp only [he, Bool.false_eq_true, if_false, List.not_mem_nil, false_or] at h1 ⊢
      exact hb h1

theorem fresh_handled (T : Types τ) (builtin : Flags → τ → σ) (f : Flags) (t : τ) :
    Handled T builtin f t (reply f (JsonDefault.fresh T (builtin f) (argsOf f) t)) := by
  have hr : ∀ r, JsonDefault.search T (JsonDefault.table T (builtin f) (argsOf f)) t (JsonDefault.orderOf T (argsOf f : Args τ σ)) = r →
      JsonDefault.fresh T (builtin f) (argsOf f) t = r.elim .fallback .serializer := by
    intro r h
    unfold JsonDefault.fresh JsonDefault.default
    rw [Dict.get?_nil]
    simp only [h]
    cases r <;> rfl
  by_cases h : ∃ u ∈ tried T f, T.sub t u = true
  · obtain ⟨pre, u, post, h1, h2, h3⟩ : ∃ pre u post, tried T f = pre ++ u :: post ∧ T.sub t u = true ∧ ∀ v ∈ pre, T.sub t v = false := by
      generalize tried T f = l at h
      induction l with
      | nil => obtain ⟨u, hu, _⟩ := h; simp at hu
      | cons x l ih =>
        by_cases e : T.sub t x = true
        · exact ⟨[], x, l, rfl, e, by simp⟩
        · have : ∃ u ∈ l, T.sub t u = true := by
            obtain ⟨u, hu, hs⟩ := h
            rcases List.mem_cons.1 hu with rfl | hu
            · exact absurd hs e
            · exact ⟨u, hu, hs⟩
          obtain ⟨pre, u, post, h1, h2, h3⟩ := ih this
          refine ⟨x :: pre, u, post, by rw [h1]; rfl, h2, ?_⟩
          intro v hv
          rcases List.mem_cons.1 hv with rfl | hv
          · simpa using e
          · exact h3 v hv
    have hs : JsonDefault.search T (JsonDefault.table T (builtin f) (argsOf f)) t (JsonDefault.orderOf T (argsOf f : Args τ σ)) = some (builtin f u) := by
      rw [orderOf_tried, h1]
      refine JsonDefault.search_split h2 (table_tried T (builtin f) f u (by rw [h1]; simp)) ?_
      intro v hv hs
      rw [h3 v hv] at hs; exact absurd hs (by decide)
    rw [hr _ hs]
    exact .first pre post u h1 h3 h2
  · have hn : ∀ v ∈ tried T f, T.sub t v = false := fun v hv => by
      cases e : T.sub t v with
      | false => rfl
      | true => exact absurd ⟨v, hv, e⟩ h
    have hs : JsonDefault.search T (JsonDefault.table T (builtin f) (argsOf f)) t (JsonDefault.orderOf T (argsOf f : Args τ σ)) = none := by
      rw [orderOf_tried]
      exact JsonDefault.search_none (fun v hv hs => by rw [hn v hv] at hs; exact absurd hs (by decide))
    rw [hr _ hs]
    exact .other hn

theorem handled_unique {T : Types τ} {builtin : Flags → τ → σ} {f : Flags} {t : τ} {r r' : Reply σ} (h : Handled T builtin f t r) (h' : Handled T builtin f t r') : r = r' := by
  cases h with
  | first pre post u h1 h2 h3 =>
    cases h' with
    | other hn => rw [hn u (by rw [h1]; simp)] at h3; exact absurd h3 (by decide)
    | first pre' post' u' h1' h2' h3' =>
      have key : ∀ (l pre pre' post post' : List τ), l = pre ++ u :: post → l = pre' ++ u' :: post' → (∀ v ∈ pre, T.sub t v = false) → (∀ v ∈ pre', T.sub t v = false) → u = u' := by
        intro l
        induction l with
        | nil => intro pre _ _ _ e; simp at e
        | cons x l ih =>
          intro pre pre' post post' e e' hp hp'
          cases pre with
          | nil =>
            cases pre' with
            | nil => simp at e e'; rw [← e.1, ← e'.1]
            | cons y pre' =>
              simp at e e'
              have := hp' y (by simp)
              rw [← e'.1, e.1, h3] at this; exact absurd this (by decide)
          | cons y pre =>
            cases pre' with
            | nil =>
              simp at e e'
              have := hp y (by simp)
              rw [← e.1, e'.1, h3'] at this; exact absurd this (by decide)
            | cons z pre' =>
              simp at e e'
              exact ih pre pre' post post' e.2 e'.2 (fun v hv => hp v (by simp [hv])) (fun v hv => hp' v (by simp [hv]))
      rw [key _ pre pre' post post' h1 h1' h2 h2']
  | other hn =>
    cases h' with
    | other _ => rfl
    | first pre post u h1 h2 h3 => rw [hn u (by rw [h1]; simp)] at h3; exact absurd h3 (by decide)

/-- Every function's type cache holds what a fresh search finds, and the entries of the `lru_cache` are functions with these flags. -/
structure Inv (T : Types τ) (builtin : Flags → τ → σ) (s : Sys τ σ) : Prop where
  fns : ∀ (i : Nat) (p : Flags × Dict τ σ), s.fns[i]? = some p → JsonDefault.CacheOk T (builtin p.1) (argsOf p.1) p.2
  lru : ∀ q ∈ s.lru, ∃ c, s.fns[q.2]? = some (q.1, c)
  size : s.lru.length ≤ maxSize

theorem inv_init (T : Types τ) (builtin : Flags → τ → σ) : Inv T builtin {} := ⟨by simp, by simp, by simp⟩

theorem get_cases (s : Sys τ σ) (f : Flags) :
    (∃ p ∈ s.lru, p.1 = f ∧ get s f = ({ s with lru := p :: s.lru.erase p }, p.2)) ∨
    ((∀ p ∈ s.lru, p.1 ≠ f) ∧ get s f = ({ fns := s.fns ++ [(f, [])], lru := ((f, s.fns.length) :: s.lru).take maxSize }, s.fns.length)) := by
  unfold get
  cases e : s.lru.find? (fun p => decide (p.1 = f)) with
  | some p =>
    left
    have h1 := List.find?_some e
    exact ⟨p, List.mem_of_find?_eq_some e, of_decide_eq_true h1, rfl⟩
  | none =>
    right
    refine ⟨fun p hp he => ?_, rfl⟩
    have := List.find?_eq_none.1 e p hp
    exact this (decide_eq_true he)

theorem Inv.get {T : Types τ} {builtin : Flags → τ → σ} {s : Sys τ σ} (i : Inv T builtin s) (f : Flags) :
    Inv T builtin (JsonCached.get s f).1 ∧ ∃ c, (JsonCached.get s f).1.fns[(JsonCached.get s f).2]? = some (f, c) := by
  rcases get_cases s f with ⟨p, hp, rfl, h⟩ | ⟨_, h⟩
  · rw [h]
    refine ⟨⟨i.fns, ?_, ?_⟩, i.lru p hp⟩
    · intro q hq
      rcases List.mem_cons.1 hq with rfl | hq
      · exact i.lru _ hp
      · exact i.lru q (List.mem_of_mem_erase hq)
    · have := List.length_erase_of_mem hp
      have h2 := i.size
      have h3 : 0 < s.lru.length := List.length_pos_of_mem hp
      show (p :: s.lru.erase p).length ≤ maxSize
      rw [List.length_cons, this]; omega
  · rw [h]
    refine ⟨⟨?_, ?_, ?_⟩, [], by simp⟩
    · intro j p hj
      have hj' : (s.fns ++ [(f, [])])[j]? = some p := hj
      rw [List.getElem?_append] at hj'
      by_cases e : j < s.fns.length
      · rw [if_pos e] at hj'; exact i.fns j p hj'
      · rw [if_neg e] at hj'
        have hm := List.mem_of_getElem? hj'
        simp at hm
        subst hm
        intro t g hg; cases hg
    · intro q hq
      have hq' := List.mem_of_mem_take hq
      rcases List.mem_cons.1 hq' with rfl | hq'
      · exact ⟨[], by simp⟩
      · obtain ⟨c, hc⟩ := i.lru q hq'
        refine ⟨c, ?_⟩
        have hlt : q.2 < s.fns.length := (List.getElem?_eq_some_iff.1 hc).1
        show (s.fns ++ [(f, [])])[q.2]? = _
        rw [List.getElem?_append, if_pos hlt]; exact hc
    · show (List.take maxSize _).length ≤ _
      rw [List.length_take]; omega

theorem apply_cases (T : Types τ) (builtin : Flags → τ → σ) (s : Sys τ σ) (i : Nat) (t : τ) :
    (s.fns[i]? = none ∧ apply T builtin s i t = (s, none)) ∨
    ∃ p, s.fns[i]? = some p ∧ apply T builtin s i t =
      ({ s with fns := s.fns.set i (p.1, (JsonDefault.default T (builtin p.1) (argsOf p.1) p.2 t).2) }, some (reply p.1 (JsonDefault.default T (builtin p.1) (argsOf p.1) p.2 t).1)) := by
  unfold apply
  cases e : s.fns[i]? with
  | none => exact .inl ⟨rfl, rfl⟩
  | some p => exact .inr ⟨p, rfl, rfl⟩

/-- A function keeps its flags. -/
theorem apply_flags {T : Types τ} {builtin : Flags → τ → σ} {s : Sys τ σ} {i j : Nat} {t : τ} {f : Flags} {c : Dict τ σ} (h : s.fns[j]? = some (f, c)) :
    ∃ c', (apply T builtin s i t).1.fns[j]? = some (f, c') := by
  rcases apply_cases T builtin s i t with ⟨_, h2⟩ | ⟨p, h1, h2⟩
  · rw [h2]; exact ⟨c, h⟩
  · rw [h2]
    show ∃ c', (s.fns.set i _)[j]? = _
    rw [List.getElem?_set]
    by_cases e : i = j
    · subst e
      rw [h] at h1; cases h1
      rw [if_pos rfl, if_pos (List.getElem?_eq_some_iff.1 h).1]
      exact ⟨_, rfl⟩
    · rw [if_neg e]; exact ⟨c, h⟩

theorem Inv.apply {T : Types τ} {builtin : Flags → τ → σ} {s : Sys τ σ} (v : Inv T builtin s) (i : Nat) (t : τ) : Inv T builtin (JsonCached.apply T builtin s i t).1 := by
  have hf : ∀ q ∈ s.lru, ∃ c, (JsonCached.apply T builtin s i t).1.fns[q.2]? = some (q.1, c) := fun q hq => by
    obtain ⟨c, hc⟩ := v.lru q hq
    exact apply_flags hc
  rcases apply_cases T builtin s i t with ⟨_, h2⟩ | ⟨p, h1, h2⟩
  · rw [h2]; exact v
  · rw [h2] at hf ⊢
    refine ⟨?_, hf, v.size⟩
    intro j q hq
    have hq' : (s.fns.set i (p.1, (JsonDefault.default T (builtin p.1) (argsOf p.1) p.2 t).2))[j]? = some q := hq
    rw [List.getElem?_set] at hq'
    by_cases e : i = j
    · subst e
      rw [if_pos rfl] at hq'
      by_cases hl : i < s.fns.length
      · rw [if_pos hl] at hq'; cases hq'
        exact (JsonDefault.default_ok (v.fns i p h1) t).2
      · rw [if_neg hl] at hq'; cases hq'
    · rw [if_neg e] at hq'; exact v.fns j q hq'

theorem Inv.run {T : Types τ} {builtin : Flags → τ → σ} : ∀ (h : List (Op τ)) {s : Sys τ σ}, Inv T builtin s → Inv T builtin (JsonCached.run T builtin s h)
  | [], s, v => v
  | .get f :: h, s, v => Inv.run h (v.get f).1
  | .apply i t :: h, s, v => Inv.run h (v.apply i t)

theorem run_flags {T : Types τ} {builtin : Flags → τ → σ} : ∀ (h : List (Op τ)) (s : Sys τ σ) (j : Nat) (f : Flags) (c : Dict τ σ), s.fns[j]? = some (f, c) →
    ∃ c', (run T builtin s h).fns[j]? = some (f, c')
  | [], s, j, f, c, e => ⟨c, e⟩
  | .get g :: h, s, j, f, c, e => by
    refine run_flags h _ j f c ?_
    show (get s g).1.fns[j]? = _
    rcases get_cases s g with ⟨p, hp, _, h1⟩ | ⟨_, h1⟩
    · rw [h1]; exact e
    · rw [h1]
      have hlt : j < s.fns.length := (List.getElem?_eq_some_iff.1 e).1
      show (s.fns ++ [(g, [])])[j]? = _
      rw [List.getElem?_append, if_pos hlt]; exact e
  | .apply i t :: h, s, j, f, c, e => by
    obtain ⟨c', hc'⟩ := apply_flags (T := T) (builtin := builtin) (i := i) (t := t) e
    exact run_flags h _ j f c' hc'

/-! ### C323 -/

/-- C323: whatever calls were made before, whatever calls are made while a call with flags `f` goes on (even if its function has left the cache meanwhile), an object of type `t` is handled as flags `f` and type `t` say. -/
theorem C323_history (T : Types τ) (builtin : Flags → τ → σ) (before during : List (Op τ)) (f : Flags) (t : τ) :
    ∃ r, (apply T builtin (run T builtin (get (run T builtin {} before) f).1 during) (get (run T builtin {} before) f).2 t).2 = some r ∧
      ∀ r', Handled T builtin f t r' ↔ r' = r := by
  have v := (inv_init T builtin).run before
  obtain ⟨v1, c, hc⟩ := v.get f
  have v2 := v1.run (builtin := builtin) during
  obtain ⟨c', hc'⟩ := run_flags (T := T) (builtin := builtin) during _ _ f c hc
  rcases apply_cases T builtin (run T builtin (get (run T builtin {} before) f).1 during) (get (run T builtin {} before) f).2 t with ⟨h1, _⟩ | ⟨p, h1, h2⟩
  · rw [hc'] at h1; cases h1
  · rw [hc'] at h1; cases h1
    rw [h2]
    refine ⟨_, rfl, ?_⟩
    rw [(JsonDefault.default_ok (v2.fns _ _ hc') t).1]
    have hf := fresh_handled T builtin f t
    exact fun r' => ⟨fun h => handled_unique h hf, fun h => h ▸ hf⟩

/-- C323, memory: never more than 128 default functions are kept, whatever flags are used. -/
theorem C323_bounded (T : Types τ) (builtin : Flags → τ → σ) (h : List (Op τ)) : (run T builtin {} h).lru.length ≤ 128 := ((inv_init T builtin).run h).size

/-- Types by number; 7 is a subclass of `set`, 8 of nothing. -/
def T0 : Types Nat := { sub := fun a b => a == b || (a == 7 && b == 2), path := 0, decimal := 1, set := 2, frozenset := 3, enum := 4, datetime := 5, native := [5, 6] }

/-- The functions used: for decimals and sets they depend on the flags. -/
def b0 (f : Flags) (t : Nat) : String :=
  if t = 1 then (if f.decimalAsFloat then "float" else "str") else if t = 2 ∨ t = 3 then (if f.deterministicSets then "sorted" else "list") else "other"

/-- Non-vacuity: calls with different flags between and during a call do not matter. -/
example : (apply T0 b0 (run T0 b0 (get (run T0 b0 {} [.get {}, .apply 0 7, .apply 0 1]) { deterministicSets := true }).1 [.apply 0 7, .get { decimalAsFloat := true }, .apply 1 1])
      (get (run T0 b0 {} [.get {}, .apply 0 7, .apply 0 1]) { deterministicSets := true }).2 7).2 = some (.by_ "sorted") ∧
    (apply T0 b0 (run T0 b0 {} [.get {}, .apply 0 7]) 0 7).2 = some (.by_ "list") ∧
    (apply T0 b0 (run T0 b0 {} [.get {}, .apply 0 7]) 0 8).2 = some (.duck false 2048) := by decide

end Verif.JsonCached
