import Verif.Props.SpecExact

/-! # C318: `as_nullable`, `as_listable` and `with_validator` -/

set_option linter.unusedSectionVars false
set_option linter.unusedSimpArgs false
set_option linter.unusedVariables false

namespace Verif.Spec

variable {ν τ : Type}

/-- A spec that can be made. -/
structure Sound (V : Values ν) (vt : τ → Bool) (s : Spec ν τ) : Prop where
  keys : (s.metas.map Prod.fst).Nodup
  cons : Consistent V s.metas
  named : Named V vt s.base s.metas

theorem sound_iff (V : Values ν) (vt : τ → Bool) (s : Spec ν τ) : Sound V vt s ↔ mk V vt s.base s.metas [] [] = .ok s := by
  rw [C222_construct]
  simp only [List.append_nil, true_and]
  exact ⟨fun h => ⟨h.keys, h.cons, h.named⟩, fun h => ⟨h.1, h.2.1, h.2.2⟩⟩

/-- `True` as a metadata value. -/
structure Yes (V : Values ν) (yes : ν) : Prop where
  isTrue : V.isTrue yes = true
  sentinel : V.sentinel yes = false

/-- Setting one entry that is neither a name nor a default. -/
theorem set_one {V : Values ν} {vt : τ → Bool} {s : Spec ν τ} (h : Sound V vt s) {k : Key} {v : ν} (hs : V.sentinel v = false) (h1 : k ≠ .name) (h2 : k ≠ .default) (h3 : k ≠ .factory)
    (h4 : k = .validator → V.truthy v = true → V.validators v = true) :
    withUpdates V vt s [(k, v)] = .ok ⟨s.base, updated V s.metas [(k, v)]⟩ ∧ Sound V vt ⟨s.base, updated V s.metas [(k, v)]⟩ := by
  have hm := mem_updated V s.metas k v hs
  have hn := updated_nodup V h.keys k v
  have old : ∀ {k' : Key} {v' : ν}, k' ≠ k → (k', v') ∈ updated V s.metas [(k, v)] → (k', v') ∈ s.metas := by
    intro k' v' hk hx
    rcases (hm k' v').mp hx with c | c
    · exact c.2
    · exact absurd c.1 hk
  have hc : Consistent V (updated V s.metas [(k, v)]) := by
    refine ⟨fun d f hd hf => h.cons.1 d f (old h2.symm hd) (old h3.symm hf), fun f hf => h.cons.2.1 f (old h3.symm hf), fun w hw => ?_⟩
    rcases (hm .validator w).mp hw with c | c
    · exact h.cons.2.2 w c.2
    · rw [c.2]; exact h4 c.1.symm
  have hN : Named V vt s.base (updated V s.metas [(k, v)]) := ⟨fun w hw => h.named.1 w (old h1.symm hw), h.named.2⟩
  refine ⟨?_, ⟨hn, hc, hN⟩⟩
  exact (C222_construct V vt s.base _ [] [] _).mpr ⟨by simp, by simpa using hn, by simpa using hc, by simpa using hN⟩

theorem flag_iff (V : Values ν) {s : Spec ν τ} (h : (s.metas.map Prod.fst).Nodup) (k : Key) : flag V s k = true ↔ ∃ v, (k, v) ∈ s.metas ∧ V.isTrue v = true := by
  unfold flag
  rw [option_any_iff]
  simp only [get_iff h]

/-- The entries of the two specs agree except for one key. -/
def OnlyAt (k : Key) (s t : Spec ν τ) : Prop := t.base = s.base ∧ ∀ k' v, k' ≠ k → ((k', v) ∈ t.metas ↔ (k', v) ∈ s.metas)

theorem updated_only {V : Values ν} {s : Spec ν τ} {k : Key} {v : ν} (hs : V.sentinel v = false) : OnlyAt k s ⟨s.base, updated V s.metas [(k, v)]⟩ := by
  refine ⟨rfl, fun k' v' hk => ?_⟩
  show (k', v') ∈ updated V s.metas [(k, v)] ↔ _
  rw [mem_updated V s.metas k v hs]
  constructor
  · rintro (c | c)
    · exact c.2
    · exact absurd c.1 hk
  · exact fun c => .inl ⟨hk, c⟩

theorem flag_set {V : Values ν} {s : Spec ν τ} (h : (s.metas.map Prod.fst).Nodup) {yes : ν} (hy : Yes V yes) (k k' : Key) :
    flag V ⟨s.base, updated V s.metas [(k, yes)]⟩ k' = (decide (k' = k) || flag V s k') := by
  have e : flag V (⟨s.base, updated V s.metas [(k, yes)]⟩ : Spec ν τ) k' = true ↔ (decide (k' = k) || flag V s k') = true := by
    rw [flag_iff V (s := ⟨s.base, updated V s.metas [(k, yes)]⟩) (updated_nodup V h k yes), Bool.or_eq_true, flag_iff V h, decide_eq_true_iff]
    constructor
    · rintro ⟨v, hv, ht⟩
      rcases (mem_updated V s.metas k yes hy.sentinel k' v).mp hv with c | c
      · exact .inr ⟨v, c.2, ht⟩
      · exact .inl c.1
    · rintro (c | ⟨v, hv, ht⟩)
      · exact ⟨yes, (mem_updated V s.metas k yes hy.sentinel k' yes).mpr (.inr ⟨c, rfl⟩), hy.isTrue⟩
      · by_cases c : k' = k
        · exact ⟨yes, (mem_updated V s.metas k yes hy.sentinel k' yes).mpr (.inr ⟨c, rfl⟩), hy.isTrue⟩
        · exact ⟨v, (mem_updated V s.metas k yes hy.sentinel k' v).mpr (.inl ⟨c, hv⟩), ht⟩
  cases h1 : flag V (⟨s.base, updated V s.metas [(k, yes)]⟩ : Spec ν τ) k' <;> cases h2 : (decide (k' = k) || flag V s k') <;> simp_all

/-- **C318.**  On every spec `as_nullable()` gives a spec whose annotation also allows None, and that differs in nothing else. -/
theorem C318_nullable (V : Values ν) (vt : τ → Bool) {s : Spec ν τ} (h : Sound V vt s) {yes : ν} (hy : Yes V yes) :
    ∃ t, asNullable V vt yes s = .ok t ∧ Sound V vt t ∧ OnlyAt .nullable s t ∧ flag V t .nullable = true ∧
      (s.base = none → annotation V t = .any) ∧
      (∀ b, s.base = some b → flag V s .listable = false → annotation V t = .optional (.base b)) ∧
      (∀ b, s.base = some b → flag V s .listable = true → annotation V t = .optional (.list (.base b))) := by
  obtain ⟨h1, h2⟩ := set_one (k := .nullable) h hy.sentinel (by simp) (by simp) (by simp) (by simp)
  have hf := flag_set h.keys hy .nullable
  refine ⟨_, h1, h2, updated_only hy.sentinel, by rw [hf]; rfl, ?_, ?_, ?_⟩
  · intro hb; simp [annotation, hb]
  · intro b hb hl
    simp only [annotation, hb]
    have e1 := hf .nullable
    have e2 := hf .listable
    rw [hb] at e1 e2
    rw [e1, e2, hl]; rfl
  · intro b hb hl
    simp only [annotation, hb]
    have e1 := hf .nullable
    have e2 := hf .listable
    rw [hb] at e1 e2
    rw [e1, e2, hl]; rfl

/-- **C318.**  On every spec `as_listable()` gives a spec whose annotation is a list, None being allowed instead of the list if it was allowed before, and that differs in nothing else. -/
theorem C318_listable (V : Values ν) (vt : τ → Bool) {s : Spec ν τ} (h : Sound V vt s) {yes : ν} (hy : Yes V yes) :
    ∃ t, asListable V vt yes s = .ok t ∧ Sound V vt t ∧ OnlyAt .listable s t ∧ flag V t .listable = true ∧
      (s.base = none → annotation V t = .any) ∧
      (∀ b, s.base = some b → flag V s .nullable = false → annotation V t = .list (.base b)) ∧
      (∀ b, s.base = some b → flag V s .nullable = true → annotation V t = .optional (.list (.base b))) := by
  obtain ⟨h1, h2⟩ := set_one (k := .listable) h hy.sentinel (by simp) (by simp) (by simp) (by simp)
  have hf := flag_set h.keys hy .listable
  refine ⟨_, h1, h2, updated_only hy.sentinel, by rw [hf]; rfl, ?_, ?_, ?_⟩
  · intro hb; simp [annotation, hb]
  · intro b hb hl
    simp only [annotation, hb]
    have e1 := hf .nullable
    have e2 := hf .listable
    rw [hb] at e1 e2
    rw [e1, e2, hl]; rfl
  · intro b hb hl
    simp only [annotation, hb]
    have e1 := hf .nullable
    have e2 := hf .listable
    rw [hb] at e1 e2
    rw [e1, e2, hl]; rfl

/-- **C318.**  On every spec `with_validator(v)` succeeds exactly if `v` consists of callables or is false, else it raises the exception group; the new spec has this validator instead of any
former one and differs in nothing else, its annotation included. -/
theorem C318_validator (V : Values ν) (vt : τ → Bool) {s : Spec ν τ} (h : Sound V vt s) {v : ν} (hs : V.sentinel v = false) :
    ((V.truthy v = true → V.validators v = true) → ∃ t, withValidator V vt s v = .ok t ∧ Sound V vt t ∧ OnlyAt .validator s t ∧ get t.metas .validator = some v ∧ annotation V t = annotation V s) ∧
    (¬ (V.truthy v = true → V.validators v = true) → withValidator V vt s v = .error .validation) := by
  have hn := updated_nodup V h.keys .validator v
  have hm : (Key.validator, v) ∈ updated V s.metas [(.validator, v)] := (mem_updated V s.metas .validator v hs .validator v).mpr (.inr ⟨rfl, rfl⟩)
  refine ⟨fun c => ?_, fun c => ?_⟩
  · obtain ⟨h1, h2⟩ := set_one (k := .validator) h hs (by simp) (by simp) (by simp) (fun _ => c)
    refine ⟨_, h1, h2, updated_only hs, (get_iff hn _ _).mpr hm, ?_⟩
    have hf : ∀ k, k ≠ .validator → flag V ⟨s.base, updated V s.metas [(.validator, v)]⟩ k = flag V s k := by
      intro k hk
      have e := (updated_only (s := s) (k := .validator) hs).2
      have : flag V (⟨s.base, updated V s.metas [(.validator, v)]⟩ : Spec ν τ) k = true ↔ flag V s k = true := by
        rw [flag_iff V (s := ⟨s.base, updated V s.metas [(.validator, v)]⟩) hn, flag_iff V h.keys]
        exact exists_congr fun w => and_congr_left fun _ => e k w hk
      cases h1 : flag V (⟨s.base, updated V s.metas [(.validator, v)]⟩ : Spec ν τ) k <;> cases h2 : flag V s k <;> simp_all
    simp only [annotation]
    cases hb : s.base with
    | none => rfl
    | some b =>
      rw [hb] at hf
      simp only [hf .nullable (by simp), hf .listable (by simp)]
  · refine (C222_refused V vt s.base _ [] [] .validation).mpr (.inl ⟨rfl, by simpa using hn, fun hc => c fun ht => ?_⟩)
    simp only [List.append_nil] at hc
    exact hc.2.2 v hm ht

/-- **C318, in part.**  Two such calls in either order, or the same call twice, give the same base, the same entries and the same annotation.  Missing: equal specs (see below). -/
theorem C318_order_partial (V : Values ν) (vt : τ → Bool) {s : Spec ν τ} (h : Sound V vt s) {yes : ν} (hy : Yes V yes) (k k' : Key) (hk : k = .nullable ∨ k = .listable) (hk' : k' = .nullable ∨ k' = .listable) :
    ∃ a b, (withUpdates V vt s [(k, yes)]).bind (fun t => withUpdates V vt t [(k', yes)]) = .ok a ∧ (withUpdates V vt s [(k', yes)]).bind (fun t => withUpdates V vt t [(k, yes)]) = .ok b ∧
      a.base = b.base ∧ (∀ m, m ∈ a.metas ↔ m ∈ b.metas) ∧ annotation V a = annotation V b := by
  have one : ∀ (q : Key), (q = .nullable ∨ q = .listable) → ∀ {u : Spec ν τ}, Sound V vt u →
      withUpdates V vt u [(q, yes)] = .ok ⟨u.base, updated V u.metas [(q, yes)]⟩ ∧ Sound V vt ⟨u.base, updated V u.metas [(q, yes)]⟩ := by
    intro q hq u hu
    rcases hq with rfl | rfl <;> exact set_one hu hy.sentinel (by simp) (by simp) (by simp) (by simp)
  obtain ⟨a1, a2⟩ := one k hk h
  obtain ⟨a3, a4⟩ := one k' hk' a2
  obtain ⟨b1, b2⟩ := one k' hk' h
  obtain ⟨b3, b4⟩ := one k hk b2
  refine ⟨⟨s.base, updated V (updated V s.metas [(k, yes)]) [(k', yes)]⟩, ⟨s.base, updated V (updated V s.metas [(k', yes)]) [(k, yes)]⟩, by rw [a1]; exact a3, by rw [b1]; exact b3, rfl, ?_, ?_⟩
  · rintro ⟨q, v⟩
    show (q, v) ∈ updated V (updated V s.metas [(k, yes)]) [(k', yes)] ↔ (q, v) ∈ updated V (updated V s.metas [(k', yes)]) [(k, yes)]
    rw [mem_updated V _ k' yes hy.sentinel, mem_updated V _ k yes hy.sentinel, mem_updated V _ k yes hy.sentinel, mem_updated V _ k' yes hy.sentinel]
    by_cases e1 : q = k <;> by_cases e2 : q = k' <;> simp [e1, e2] <;> simp_all
  · have fa : ∀ q, flag V ⟨s.base, updated V (updated V s.metas [(k, yes)]) [(k', yes)]⟩ q = (decide (q = k') || (decide (q = k) || flag V s q)) := by
      intro q
      have := flag_set (s := ⟨s.base, updated V s.metas [(k, yes)]⟩) a2.keys hy k' q
      rw [flag_set h.keys hy] at this
      exact this
    have fb : ∀ q, flag V ⟨s.base, updated V (updated V s.metas [(k', yes)]) [(k, yes)]⟩ q = (decide (q = k) || (decide (q = k') || flag V s q)) := by
      intro q
      have := flag_set (s := ⟨s.base, updated V s.metas [(k', yes)]⟩) b2.keys hy k q
      rw [flag_set h.keys hy] at this
      exact this
    have e : ∀ q, flag V (⟨s.base, updated V (updated V s.metas [(k, yes)]) [(k', yes)]⟩ : Spec ν τ) q = flag V ⟨s.base, updated V (updated V s.metas [(k', yes)]) [(k, yes)]⟩ q := by
      intro q; rw [fa, fb, ← Bool.or_assoc, ← Bool.or_assoc, Bool.or_comm (decide (q = k'))]
    simp only [annotation]
    cases hb : s.base with
    | none => rfl
    | some b =>
      rw [hb] at e
      simp only [e .nullable, e .listable]

theorem updated_last (V : Values ν) (ms : Metas ν) {k : Key} {v : ν} (hs : V.sentinel v = false) : updated V ms [(k, v)] = ms.filter (fun m => !decide (m.1 = k)) ++ [(k, v)] := by
  simp [updated, hs]

/-- **C318, exactly.**  A call of `as_nullable` or `as_listable` on a spec that has the entry already gives an equal spec exactly if the entry is the last one of the metadata. -/
theorem C318_exact_partial (V : Values ν) (vt : τ → Bool) {s : Spec ν τ} (h : Sound V vt s) {yes : ν} (hy : Yes V yes) (k : Key) (hk : k = .nullable ∨ k = .listable) :
    withUpdates V vt s [(k, yes)] = .ok s ↔ ∃ ms, s.metas = ms ++ [(k, yes)] := by
  have e : withUpdates V vt s [(k, yes)] = .ok ⟨s.base, updated V s.metas [(k, yes)]⟩ := by
    rcases hk with rfl | rfl <;> exact (set_one h hy.sentinel (by simp) (by simp) (by simp) (by simp)).1
  rw [e, updated_last V s.metas hy.sentinel]
  constructor
  · intro hx
    injection hx with hx
    refine ⟨s.metas.filter (fun m => !decide (m.1 = k)), ?_⟩
    have := congrArg Spec.metas hx
    exact this.symm
  · rintro ⟨ms, hm⟩
    have hn := h.keys
    rw [hm, List.map_append, List.nodup_append] at hn
    have hf : (ms ++ [(k, yes)]).filter (fun m => !decide (m.1 = k)) = ms := by
      rw [List.filter_append]
      have h1 : ms.filter (fun m => !decide (m.1 = k)) = ms := by
        rw [List.filter_eq_self]
        intro m hm
        have := hn.2.2 m.1 (List.mem_map.mpr ⟨m, hm, rfl⟩) k (by simp)
        simpa using this
      rw [h1]; simp
    rw [hm, hf, ← hm]

/-- **C318 fails in general**: the two orders give specs that are not equal, and `as_nullable()` of a nullable spec need not be equal to it, because the metadata are compared in order. -/
theorem C318_violation :
    (asNullable demoV vtAny (.bool true) (⟨some "int", []⟩ : Spec SV String)).bind (asListable demoV vtAny (.bool true)) ≠
      (asListable demoV vtAny (.bool true) (⟨some "int", []⟩ : Spec SV String)).bind (asNullable demoV vtAny (.bool true)) ∧
    asNullable demoV vtAny (.bool true) (⟨some "int", [(.nullable, .bool true), (.name, .str "x")]⟩ : Spec SV String) =
      .ok ⟨some "int", [(.name, .str "x"), (.nullable, .bool true)]⟩ := by decide

example : Yes demoV (.bool true) := ⟨by decide, by decide⟩
example : Sound demoV vtAny (⟨some "int", [(.nullable, .bool true), (.name, .str "x"), (.validator, .fn 1)]⟩ : Spec SV String) := (sound_iff ..).mpr (by decide)

end Verif.Spec
