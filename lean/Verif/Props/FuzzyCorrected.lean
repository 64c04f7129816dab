import Verif.Props.Fuzzy

/-!
# Property C215, C216: fuzzy parsing is strict parsing of the corrected program
-/

set_option linter.unusedSectionVars false
set_option linter.unusedSimpArgs false
set_option linter.unusedVariables false

namespace Verif.Fuzzy

open Verif.Parser (Str OutVal)
open Verif.Resolver (LvarMeta LactMeta Spec Ty Ext Output RErr)

variable {ν κ μ : Type}

/-! ## Specification -/

/-- `s` is the last of the specs whose type is the model class named `m`. -/
def IsModel (specs : List Spec) (m : Str) (s : Spec) : Prop :=
  ∃ pre post, specs = pre ++ s :: post ∧ s.ty = .model m ∧ ∀ t ∈ post, t.ty ≠ .model m

/-- `m` is the name of the operable, with or without `Response`, and can be used for its plain fields: there is one, and no model class
with the operable's name before it. -/
def IsVirtual (op : Option Str) (specs : List Spec) (m : Str) : Prop :=
  ∃ n, op = some n ∧ n ≠ [] ∧ (m = n ∨ m = n ++ "Response".toList) ∧
    ∃ pre s post, specs = pre ++ s :: post ∧ (∀ k, s.ty ≠ .model k) ∧ ∀ t ∈ pre, t.ty ≠ .model n

/-- `m` is a model name that declarations may use, and `fs` are the fields it has: those of the model class, or the names of the specs
for the name of the operable. -/
def ModelFields (env : Env) (specs : List Spec) (names : List Str) (m : Str) (fs : List Str) : Prop :=
  (∃ s, IsModel specs m s ∧ fs = env.modelFields s) ∨
  ((∀ s ∈ specs, s.ty ≠ .model m) ∧ IsVirtual env.opName specs m ∧ fs = names)

/-- The name `a` is corrected to `b` (as in C52): it is a candidate itself, or `b` is close enough and leads all other close candidates. -/
def Corrects (env : Env) (t : Rat) (cand : Str → Prop) (a b : Str) : Prop :=
  (cand a ∧ b = a) ∨
  (¬ cand a ∧ 0 ≤ t ∧ t < 1 ∧ cand b ∧ t ≤ env.score (env.lower a) (env.lower b) ∧
    ∀ v, cand v → v ≠ b → t ≤ env.score (env.lower a) (env.lower v) → env.score a v + 1 / 20 ≤ env.score a b)

/-- A model name may be used. -/
def Known (env : Env) (specs : List Spec) (names : List Str) (m : Str) : Prop := ∃ fs, ModelFields env specs names m fs

/-- The model and field of an lvar are corrected to `m'` and `f'`. -/
def NsFix (env : Env) (th : Thresholds) (specs : List Spec) (names : List Str) (m f m' f' : Str) : Prop :=
  Corrects env th.model (Known env specs names) m m' ∧ ∃ fs, ModelFields env specs names m' fs ∧ Corrects env th.field (· ∈ fs) f f'

/-- An lvar and its correction: raw ones are kept, the value is kept. -/
def LvarFix (env : Env) (th : Thresholds) (specs : List Spec) (names : List Str) (l l' : LvarMeta) : Prop :=
  (l.ns = none ∧ l' = l) ∨
  ∃ m f m' f', l.ns = some (m, f) ∧ NsFix env th specs names m f m' f' ∧ l' = ⟨some (m', f'), l.value⟩

/-- A lact and its correction: a model (and a field) that also occurs in an lvar is corrected in the same way, everything else is
kept. -/
def LactFix (env : Env) (th : Thresholds) (specs : List Spec) (names : List Str) (lvars : List LvarMeta) (l l' : LactMeta) : Prop :=
  ((l.model = none ∨ l.model = some []) ∧ l' = l) ∨
  ∃ m, l.model = some m ∧ m ≠ [] ∧ l'.call = l.call ∧
    ((∃ x ∈ lvars, ∃ f, x.ns = some (m, f)) → ∃ m', Corrects env th.model (Known env specs names) m m' ∧ l'.model = some m') ∧
    ((∀ x ∈ lvars, ∀ f, x.ns ≠ some (m, f)) → l'.model = some m) ∧
    (∀ f, l.field = some f → (∃ x ∈ lvars, x.ns = some (m, f)) →
      ∃ m' f', NsFix env th specs names m f m' f' ∧ l'.field = some f') ∧
    (∀ f, l.field = some f → (∀ x ∈ lvars, x.ns ≠ some (m, f)) → l'.field = some f) ∧
    (l.field = none → l'.field = none)

/-- A value of the OUT block and its correction: references are corrected, literals kept. -/
def ValFix (env : Env) (th : Thresholds) (declared : Str → Prop) (v v' : OutVal) : Prop :=
  (∃ ns h, v = .refs ns ∧ v' = .refs (ns.map h) ∧ ∀ n ∈ ns, Corrects env th.lvar declared n (h n)) ∨
  ((∀ ns, v ≠ .refs ns) ∧ v' = v)

/-- A program and its correction. -/
structure Corrected (env : Env) (th : Thresholds) (specs : List Spec) (names : List Str) (x y : Fixed) : Prop where
  /-- the same lvars, each corrected -/
  lvars : y.lvars.keys = x.lvars.keys ∧ ∀ i (h : i < x.lvars.length) (h' : i < y.lvars.length),
    LvarFix env th specs names x.lvars[i].2 y.lvars[i].2
  /-- the same lacts, each corrected -/
  lacts : y.lacts.keys = x.lacts.keys ∧ ∀ i (h : i < x.lacts.length) (h' : i < y.lacts.length),
    LactFix env th specs names (x.lvars.map Prod.snd) x.lacts[i].2 y.lacts[i].2
  /-- the fields of the OUT block under their corrected names; of several with the same corrected name the last counts -/
  out : ∃ g : Str → Str, (∀ k ∈ x.out.keys, Corrects env th.spec (· ∈ names) k (g k)) ∧
    y.out.keys = (x.out.keys.map g).eraseDups ∧
    ∀ k' v', y.out.get? k' = some v' ↔ ∃ pre k v post, x.out = pre ++ (k, v) :: post ∧ g k = k' ∧ (∀ kv ∈ post, g kv.1 ≠ k') ∧
      ValFix env th (fun n => n ∈ x.lvars.keys ∨ n ∈ x.lacts.keys) v v'

/-! ## The models that may be used -/

theorem isModel_snoc (specs : List Spec) (s : Spec) (m : Str) (t : Spec) :
    IsModel (specs ++ [s]) m t ↔ (s.ty = .model m ∧ t = s) ∨ (s.ty ≠ .model m ∧ IsModel specs m t) := by
  constructor
  · rintro ⟨pre, post, h, h1, h2⟩
    rcases List.eq_nil_or_concat post with rfl | ⟨p, u, rfl⟩
    · have := List.append_inj' h rfl
      cases this.2
      exact Or.inl ⟨h1, rfl⟩
    · have h' : specs ++ [s] = (pre ++ t :: p) ++ [u] := by rw [h]; simp
      have := List.append_inj' h' rfl
      cases this.2
      exact Or.inr ⟨h2 s (by simp), pre, p, this.1, h1, fun v hv => h2 v (by simp [hv])⟩
  · rintro (⟨h, rfl⟩ | ⟨h, pre, post, rfl, h1, h2⟩)
    · exact ⟨specs, [], rfl, h, by simp⟩
    · refine ⟨pre, post ++ [s], by simp, h1, ?_⟩
      intro v hv
      rw [List.mem_append, List.mem_singleton] at hv
      rcases hv with hv | rfl
      · exact h2 v hv
      · exact h

theorem isModel_exists (specs : List Spec) (m : Str) (h : ∃ s ∈ specs, s.ty = .model m) : ∃ s, IsModel specs m s := by
  generalize hr : specs.reverse = r
  induction r generalizing specs with
  | nil =>
    rw [List.reverse_eq_nil_iff] at hr
    subst hr
    obtain ⟨s, hs, _⟩ := h
    cases hs
  | cons s r ih =>
    have hs : specs = r.reverse ++ [s] := by rw [← List.reverse_reverse specs, hr]; simp
    subst hs
    by_cases e : s.ty = .model m
    · exact ⟨s, (isModel_snoc ..).2 (Or.inl ⟨e, rfl⟩)⟩
    · obtain ⟨t, ht, ht'⟩ := h
      rw [List.mem_append, List.mem_singleton] at ht
      rcases ht with ht | rfl
      · obtain ⟨u, hu⟩ := ih r.reverse ⟨t, ht, ht'⟩ (by simp)
        exact ⟨u, (isModel_snoc ..).2 (Or.inr ⟨e, hu⟩)⟩
      · exact absurd ht' e

theorem isVirtual_snoc (op : Option Str) (specs : List Spec) (s : Spec) (m : Str) :
    IsVirtual op (specs ++ [s]) m ↔ IsVirtual op specs m ∨
      (∃ n, op = some n ∧ n ≠ [] ∧ (m = n ∨ m = n ++ "Response".toList) ∧ (∀ k, s.ty ≠ .model k) ∧ ∀ t ∈ specs, t.ty ≠ .model n) := by
  constructor
  · rintro ⟨n, h1, h2, h3, pre, t, post, h, h4, h5⟩
    rcases List.eq_nil_or_concat post with rfl | ⟨p, u, rfl⟩
    · have := List.append_inj' h rfl
      cases this.2
      rw [this.1]
      exact Or.inr ⟨n, h1, h2, h3, h4, h5⟩
    · have h' : specs ++ [s] = (pre ++ t :: p) ++ [u] := by rw [h]; simp
      have := List.append_inj' h' rfl
      exact Or.inl ⟨n, h1, h2, h3, pre, t, p, this.1, h4, h5⟩
  · rintro (⟨n, h1, h2, h3, pre, t, post, rfl, h4, h5⟩ | ⟨n, h1, h2, h3, h4, h5⟩)
    · exact ⟨n, h1, h2, h3, pre, t, post ++ [s], by simp, h4, h5⟩
    · exact ⟨n, h1, h2, h3, specs, s, [], rfl, h4, h5⟩

theorem ne_response (n : Str) : n ≠ n ++ "Response".toList := by
  intro h
  have := congrArg List.length h
  simp at this

theorem addVirtual_get (n : Str) (hn : n ≠ []) (s : Spec) (d : Dict Str (Spec × Bool)) (m : Str) :
    (addVirtual (some n) s d).get? m =
      if d.has n then d.get? m
      else if m = n then some (s, false)
      else if m = n ++ "Response".toList then (d.get? m).or (some (s, false))
      else d.get? m := by
  cases n with
  | nil => exact absurd rfl hn
  | cons c cs =>
    simp only [addVirtual]
    have hne := ne_response (c :: cs)
    generalize (c :: cs) ++ "Response".toList = r at hne ⊢
    generalize c :: cs = n at hne ⊢
    by_cases h1 : d.has n
    · rw [if_pos h1, if_pos h1]
    · rw [if_neg h1, if_neg h1]
      by_cases e : m = n
      · subst e
        rw [if_pos rfl]
        split
        · rw [Dict.get?_set]; simp
        · rw [Dict.get?_set, Dict.get?_set]; simp [hne, Ne.symm hne]
      · rw [if_neg e]
        by_cases h2 : (d.set n (s, false)).has r
        · rw [if_pos h2, Dict.get?_set]
          rw [Dict.has_iff, Dict.mem_keys_set] at h2
          have h2 : r ∈ d.keys := by
            rcases h2 with h | h
            · first
                | exact h
                | exact absurd h.symm hne
            · first
                | exact h
                | exact absurd h.symm hne
          rw [if_neg (Ne.symm e)]
          split
          · next e2 =>
            subst e2
            cases hg : d.get? m with
            | none => exact absurd h2 ((Dict.get?_eq_none_iff _ _).1 hg)
            | some v => rfl
          · rfl
        · rw [if_neg h2, Dict.get?_set, Dict.get?_set]
          rw [Dict.has_iff, Dict.mem_keys_set] at h2
          have h2 : r ∉ d.keys := fun h => h2 (by first | exact Or.inl h | exact Or.inr h)
          by_cases e2 : m = r
          · subst e2
            rw [if_pos rfl, if_pos rfl, (Dict.get?_eq_none_iff _ _).2 h2]
            rfl
          · rw [if_neg (Ne.symm e2), if_neg (Ne.symm e), if_neg e2]

/-- What `specMap` holds. -/
theorem specMap_spec (op : Option Str) (specs : List Spec) :
    (∀ m s, (specMap op specs).get? m = some (s, true) ↔ IsModel specs m s) ∧
    (∀ m, (∃ s, (specMap op specs).get? m = some (s, false)) ↔ (∀ t ∈ specs, t.ty ≠ .model m) ∧ IsVirtual op specs m) := by
  generalize hr : specs.reverse = r
  induction r generalizing specs with
  | nil =>
    rw [List.reverse_eq_nil_iff] at hr
    subst hr
    refine ⟨fun m s => ⟨fun h => (by cases h), ?_⟩, fun m => ⟨?_, ?_⟩⟩
    · rintro ⟨pre, post, h, _⟩; simp at h
    · rintro ⟨s, h⟩; cases h
    · rintro ⟨_, n, _, _, _, pre, s, post, h, _⟩; simp at h
  | cons s r ih =>
    have hs : specs = r.reverse ++ [s] := by rw [← List.reverse_reverse specs, hr]; simp
    subst hs
    obtain ⟨ha, hb⟩ := ih r.reverse (by simp)
    generalize r.reverse = ss at ha hb ⊢
    clear hr ih
    have hsm : specMap op (ss ++ [s]) = specStep op (specMap op ss) s := by simp [specMap, List.foldl_append]
    rw [hsm]
    generalize specMap op ss = d at ha hb ⊢
    have hhas : ∀ m, m ∈ d.keys ↔ (∃ t ∈ ss, t.ty = .model m) ∨ IsVirtual op ss m := by
      intro m
      rw [← Dict.get?_isSome_iff]
      cases hg : d.get? m with
      | none =>
        refine ⟨fun h => (by cases h), ?_⟩
        rintro (h | h)
        · obtain ⟨u, hu⟩ := isModel_exists ss m h
          rw [← ha, hg] at hu; cases hu
        · by_cases hm : ∃ t ∈ ss, t.ty = .model m
          · obtain ⟨u, hu⟩ := isModel_exists ss m hm
            rw [← ha, hg] at hu; cases hu
          · obtain ⟨u, hu⟩ := (hb m).2 ⟨fun t ht e => hm ⟨t, ht, e⟩, h⟩
            rw [hg] at hu; cases hu
      | some e =>
        obtain ⟨t, b⟩ := e
        refine ⟨fun _ => ?_, fun _ => rfl⟩
        cases b with
        | true =>
          obtain ⟨pre, post, rfl, h1, _⟩ := (ha m t).1 hg
          exact Or.inl ⟨t, by simp, h1⟩
        | false => exact Or.inr ((hb m).1 ⟨t, hg⟩).2
    unfold specStep
    cases hn : modelName s with
    | some n =>
      rw [modelName_iff] at hn
      have hinj : ∀ m, s.ty = .model m ↔ m = n := by
        intro m; rw [hn]; exact ⟨fun h => (by cases h; rfl), fun h => (by rw [h])⟩
      constructor
      · intro m t
        rw [isModel_snoc, Dict.get?_set, hinj]
        by_cases e : m = n
        · subst e; simp [eq_comm, hn]
        · rw [if_neg (by first | exact e | exact Ne.symm e), ha]; simp [e, hn, Ne.symm e]
      · intro m
        rw [isVirtual_snoc, Dict.get?_set]
        by_cases e : m = n
        · subst e
          simp only [if_true, Option.some.injEq, Prod.mk.injEq]
          refine ⟨?_, ?_⟩
          · rintro ⟨_, _, h⟩; cases h
          · rintro ⟨h, _⟩; exact absurd hn (h s (by simp))
        · rw [if_neg (by first | exact e | exact Ne.symm e), hb]
          constructor
          · rintro ⟨h1, h2⟩
            refine ⟨fun t ht => ?_, Or.inl h2⟩
            rw [List.mem_append, List.mem_singleton] at ht
            rcases ht with ht | rfl
            · exact h1 t ht
            · exact fun h => e ((hinj m).1 h)
          · rintro ⟨h1, h2 | ⟨_, _, _, _, h2, _⟩⟩
            · exact ⟨fun t ht => h1 t (by simp [ht]), h2⟩
            · exact absurd hn (h2 n)
    | none =>
      have hnm : ∀ k, s.ty ≠ .model k := by
        intro k h
        rw [← modelName_iff, hn] at h; cases h
      have hmods : ∀ m t, IsModel (ss ++ [s]) m t ↔ IsModel ss m t := by
        intro m t; rw [isModel_snoc]; simp [hnm]
      have hall : ∀ m, (∀ t ∈ ss ++ [s], t.ty ≠ .model m) ↔ ∀ t ∈ ss, t.ty ≠ .model m := by
        intro m
        constructor
        · exact fun h t ht => h t (by simp [ht])
        · intro h t ht
          rw [List.mem_append, List.mem_singleton] at ht
          rcases ht with ht | rfl
          · exact h t ht
          · exact hnm m
      simp only [hmods, hall, isVirtual_snoc]
      cases op with
      | none =>
        simp only [addVirtual]
        refine ⟨ha, fun m => ?_⟩
        rw [hb]; simp
      | some n =>
        by_cases hne : n = []
        · subst hne
          simp only [addVirtual]
          refine ⟨ha, fun m => ?_⟩
          rw [hb]; simp
        · have hvn : IsVirtual (some n) ss n ↔ ∃ pre t post, ss = pre ++ t :: post ∧ (∀ k, t.ty ≠ .model k) ∧ ∀ u ∈ pre, u.ty ≠ .model n := by
            constructor
            · rintro ⟨_, rfl', _, _, h⟩; cases rfl'; exact h
            · exact fun h => ⟨n, rfl, hne, Or.inl rfl, h⟩
          have hv : ∀ m, IsVirtual (some n) ss m ↔ (m = n ∨ m = n ++ "Response".toList) ∧ IsVirtual (some n) ss n := by
            intro m
            constructor
            · rintro ⟨_, rfl', h1, h2, h⟩; cases rfl'; exact ⟨h2, n, rfl, h1, Or.inl rfl, h⟩
            · rintro ⟨h2, _, rfl', h1, _, h⟩; cases rfl'; exact ⟨n, rfl, h1, h2, h⟩
          have hnew : ∀ m, (∃ k, some n = some k ∧ k ≠ [] ∧ (m = k ∨ m = k ++ "Response".toList) ∧ (∀ j, s.ty ≠ .model j) ∧
              ∀ t ∈ ss, t.ty ≠ .model k) ↔ (m = n ∨ m = n ++ "Response".toList) ∧ ∀ t ∈ ss, t.ty ≠ .model n := by
            intro m
            constructor
            · rintro ⟨k, e, _, h, _, h'⟩; cases e; exact ⟨h, h'⟩
            · rintro ⟨h, h'⟩; exact ⟨n, rfl, hne, h, hnm, h'⟩
          have hmod : ∀ m t, d.get? m = some (t, true) → ∃ u ∈ ss, u.ty = .model m := by
            intro m t h
            obtain ⟨pre, post, rfl, h1, _⟩ := (ha m t).1 h
            exact ⟨t, by simp, h1⟩
          have hresp := ne_response n
          constructor
          · intro m t
            rw [← ha, addVirtual_get n hne]
            by_cases h1 : d.has n
            · rw [if_pos h1]
            · rw [if_neg h1]
              rw [Dict.has_iff] at h1
              by_cases e : m = n
              · subst e
                rw [if_pos rfl, (Dict.get?_eq_none_iff _ _).2 h1]
                simp
              · rw [if_neg e]
                by_cases e2 : m = n ++ "Response".toList
                · rw [if_pos e2]
                  cases d.get? m <;> simp
                · rw [if_neg e2]
          · intro m
            rw [hnew, addVirtual_get n hne]
            by_cases h1 : d.has n
            · rw [if_pos h1, hb]
              rw [Dict.has_iff, hhas] at h1
              constructor
              · rintro ⟨a, b⟩; exact ⟨a, Or.inl b⟩
              · rintro ⟨a, b | ⟨b, c⟩⟩
                · exact ⟨a, b⟩
                · rcases h1 with ⟨t, ht, h1⟩ | h1
                  · exact absurd h1 (c t ht)
                  · exact ⟨a, (hv m).2 ⟨b, h1⟩⟩
            · rw [if_neg h1]
              rw [Dict.has_iff, hhas] at h1
              have hno : ∀ t ∈ ss, t.ty ≠ .model n := fun t ht e => h1 (Or.inl ⟨t, ht, e⟩)
              by_cases e : m = n
              · subst e
                rw [if_pos rfl]
                exact ⟨fun _ => ⟨hno, Or.inr ⟨Or.inl rfl, hno⟩⟩, fun _ => ⟨s, rfl⟩⟩
              · rw [if_neg e]
                by_cases e2 : m = n ++ "Response".toList
                · rw [if_pos e2]
                  cases hg : d.get? m with
                  | none =>
                    have hk := (Dict.get?_eq_none_iff _ _).1 hg
                    rw [hhas] at hk
                    refine ⟨fun _ => ⟨fun t ht h => hk (Or.inl ⟨t, ht, h⟩), Or.inr ⟨Or.inr e2, hno⟩⟩, fun _ => ⟨s, rfl⟩⟩
                  | some q =>
                    obtain ⟨t, b⟩ := q
                    cases b with
                    | true =>
                      obtain ⟨u, hu, hu'⟩ := hmod m t hg
                      simp only [Option.some_or, Option.some.injEq, Prod.mk.injEq]
                      refine ⟨?_, fun h => absurd hu' (h.1 u hu)⟩
                      rintro ⟨_, _, h⟩; cases h
                    | false =>
                      have := (hb m).1 ⟨t, hg⟩
                      refine ⟨fun _ => ⟨this.1, Or.inl this.2⟩, fun _ => ⟨t, rfl⟩⟩
                · rw [if_neg e2, hb]
                  refine ⟨fun h => ⟨h.1, Or.inl h.2⟩, ?_⟩
                  rintro ⟨a, b | ⟨b, _⟩⟩
                  · exact ⟨a, b⟩
                  · rcases b with b | b
                    · exact absurd b e
                    · exact absurd b e2

/-- The entries of `specMap` are the models that may be used, with their fields. -/
theorem fields_iff (env : Env) (specs : List Spec) (names : List Str) (m : Str) (fs : List Str) :
    ModelFields env specs names m fs ↔ ∃ e, (specMap env.opName specs).get? m = some e ∧ fs = expectedFields env names e := by
  obtain ⟨ha, hb⟩ := specMap_spec env.opName specs
  constructor
  · rintro (⟨s, h1, rfl⟩ | ⟨h1, h2, rfl⟩)
    · exact ⟨(s, true), (ha m s).2 h1, rfl⟩
    · obtain ⟨s, hs⟩ := (hb m).2 ⟨h1, h2⟩
      exact ⟨(s, false), hs, rfl⟩
  · rintro ⟨⟨s, b⟩, h, rfl⟩
    cases b with
    | true => exact Or.inl ⟨s, (ha m s).1 h, rfl⟩
    | false => exact Or.inr ⟨((hb m).1 ⟨s, h⟩).1, ((hb m).1 ⟨s, h⟩).2, rfl⟩

theorem known_iff (env : Env) (specs : List Spec) (names : List Str) (m : Str) :
    Known env specs names m ↔ m ∈ (specMap env.opName specs).keys := by
  unfold Known
  simp only [fields_iff]
  rw [← Dict.get?_isSome_iff, Option.isSome_iff_exists]
  constructor
  · rintro ⟨_, e, h, _⟩; exact ⟨e, h⟩
  · rintro ⟨e, h⟩; exact ⟨_, e, h, rfl⟩

theorem corrects_iff (env : Env) (t : Rat) (cands : List Str) (a b : Str) :
    correctName env.lower env.score t a cands = .ok b ↔ Corrects env t (· ∈ cands) a b := by
  rw [C52_result]
  unfold Corrects
  constructor
  · rintro (h | ⟨h1, h2, h3, ⟨h4, h5⟩, h6⟩)
    · exact Or.inl h
    · exact Or.inr ⟨h1, h2, h3, h4, h5, h6⟩
  · rintro (h | ⟨h1, h2, h3, h4, h5, h6⟩)
    · exact Or.inl h
    · exact Or.inr ⟨h1, h2, h3, ⟨h4, h5⟩, h6⟩

theorem corrects_congr (env : Env) (t : Rat) {P Q : Str → Prop} (h : ∀ w, P w ↔ Q w) (a b : Str) :
    Corrects env t P a b ↔ Corrects env t Q a b := by
  have : P = Q := funext fun w => propext (h w)
  rw [this]

/-! ## The corrections -/

theorem modelStep_cases (env : Env) (th : Thresholds) (sm : Dict Str (Spec × Bool)) (d : Dict Str Str) (l : LvarMeta) :
    (l.ns = none ∧ modelStep env th sm d l = .ok d) ∨
    ∃ m f, l.ns = some (m, f) ∧
      ((∃ e, correctName env.lower env.score th.model m sm.keys = .error e ∧ modelStep env th sm d l = .error e) ∨
       ∃ m', correctName env.lower env.score th.model m sm.keys = .ok m' ∧ modelStep env th sm d l = .ok (d.set m m')) := by
  unfold modelStep
  cases h : l.ns with
  | none => exact Or.inl ⟨rfl, rfl⟩
  | some mf =>
    obtain ⟨m, f⟩ := mf
    refine Or.inr ⟨m, f, rfl, ?_⟩
    cases hc : correctName env.lower env.score th.model m sm.keys with
    | error e => exact Or.inl ⟨e, rfl, by simp only [hc]⟩
    | ok m' => exact Or.inr ⟨m', rfl, by simp only [hc]⟩

theorem modelCorr_ok (env : Env) (th : Thresholds) (sm : Dict Str (Spec × Bool)) (ls : List LvarMeta) (d mc : Dict Str Str)
    (h : modelCorr env th sm ls d = .ok mc) :
    (∀ m, (∃ l ∈ ls, ∃ f, l.ns = some (m, f)) → ∃ m', correctName env.lower env.score th.model m sm.keys = .ok m' ∧ mc.get? m = some m') ∧
    (∀ m, (∀ l ∈ ls, ∀ f, l.ns ≠ some (m, f)) → mc.get? m = d.get? m) := by
  induction ls generalizing d with
  | nil => cases h; exact ⟨fun m ⟨l, hl, _⟩ => (by cases hl), fun _ _ => rfl⟩
  | cons l ls ih =>
    rw [modelCorr] at h
    rcases modelStep_cases env th sm d l with ⟨h1, h2⟩ | ⟨m, f, h1, ⟨e, h2, h3⟩ | ⟨m', h2, h3⟩⟩
    · rw [h2] at h
      obtain ⟨i1, i2⟩ := ih d h
      constructor
      · rintro m ⟨l', hl, f, hf⟩
        rw [List.mem_cons] at hl
        rcases hl with rfl | hl
        · rw [h1] at hf; cases hf
        · exact i1 m ⟨l', hl, f, hf⟩
      · exact fun m hm => i2 m (fun l' hl => hm l' (List.mem_cons_of_mem _ hl))
    · rw [h3] at h; cases h
    · rw [h3] at h
      obtain ⟨i1, i2⟩ := ih _ h
      constructor
      · rintro k ⟨l', hl, g, hf⟩
        by_cases hk : ∃ l ∈ ls, ∃ f, l.ns = some (k, f)
        · exact i1 k hk
        · rw [List.mem_cons] at hl
          rcases hl with rfl | hl
          · rw [h1] at hf
            cases hf
            refine ⟨m', h2, ?_⟩
            rw [i2 m (fun l hl f hf => hk ⟨l, hl, f, hf⟩), Dict.get?_set]
            simp
          · exact absurd ⟨l', hl, g, hf⟩ hk
      · intro k hk
        rw [i2 k (fun l' hl => hk l' (List.mem_cons_of_mem _ hl)), Dict.get?_set]
        have : k ≠ m := fun e => hk l (by simp) f (by rw [e]; exact h1)
        rw [if_neg (by first | exact this | exact Ne.symm this)]

theorem modelCorr_error (env : Env) (th : Thresholds) (sm : Dict Str (Spec × Bool)) (ls : List LvarMeta) (d : Dict Str Str) (e : Err)
    (h : modelCorr env th sm ls d = .error e) :
    ∃ l ∈ ls, ∃ m f, l.ns = some (m, f) ∧ correctName env.lower env.score th.model m sm.keys = .error e := by
  induction ls generalizing d with
  | nil => cases h
  | cons l ls ih =>
    rw [modelCorr] at h
    rcases modelStep_cases env th sm d l with ⟨h1, h2⟩ | ⟨m, f, h1, ⟨e', h2, h3⟩ | ⟨m', h2, h3⟩⟩
    · rw [h2] at h
      obtain ⟨l', hl, r⟩ := ih d h
      exact ⟨l', List.mem_cons_of_mem _ hl, r⟩
    · rw [h3] at h; cases h
      exact ⟨l, by simp, m, f, h1, h2⟩
    · rw [h3] at h
      obtain ⟨l', hl, r⟩ := ih _ h
      exact ⟨l', List.mem_cons_of_mem _ hl, r⟩

theorem fieldStep_cases (env : Env) (th : Thresholds) (names : List Str) (sm : Dict Str (Spec × Bool)) (mc : Dict Str Str)
    (d : Dict (Str × Str) Str) (l : LvarMeta) :
    (l.ns = none ∧ fieldStep env th names sm mc d l = .ok d) ∨
    ∃ m f, l.ns = some (m, f) ∧
      ((∃ e, correctName env.lower env.score th.field f (fieldsFor env names sm ((mc.get? m).getD m)) = .error e ∧
          fieldStep env th names sm mc d l = .error e) ∨
       ∃ f', correctName env.lower env.score th.field f (fieldsFor env names sm ((mc.get? m).getD m)) = .ok f' ∧
          fieldStep env th names sm mc d l = .ok (d.set (m, f) f')) := by
  unfold fieldStep
  cases h : l.ns with
  | none => exact Or.inl ⟨rfl, rfl⟩
  | some mf =>
    obtain ⟨m, f⟩ := mf
    refine Or.inr ⟨m, f, rfl, ?_⟩
    cases hc : correctName env.lower env.score th.field f (fieldsFor env names sm ((mc.get? m).getD m)) with
    | error e => exact Or.inl ⟨e, rfl, by simp only [hc]⟩
    | ok m' => exact Or.inr ⟨m', rfl, by simp only [hc]⟩

theorem fieldCorr_ok (env : Env) (th : Thresholds) (names : List Str) (sm : Dict Str (Spec × Bool)) (mc : Dict Str Str) (ls : List LvarMeta)
    (d fc : Dict (Str × Str) Str) (h : fieldCorr env th names sm mc ls d = .ok fc) :
    (∀ m f, (∃ l ∈ ls, l.ns = some (m, f)) → ∃ f', correctName env.lower env.score th.field f (fieldsFor env names sm ((mc.get? m).getD m)) = .ok f' ∧
      fc.get? (m, f) = some f') ∧
    (∀ m f, (∀ l ∈ ls, l.ns ≠ some (m, f)) → fc.get? (m, f) = d.get? (m, f)) := by
  induction ls generalizing d with
  | nil => cases h; exact ⟨fun m f ⟨l, hl, _⟩ => (by cases hl), fun _ _ _ => rfl⟩
  | cons l ls ih =>
    rw [fieldCorr] at h
    rcases fieldStep_cases env th names sm mc d l with ⟨h1, h2⟩ | ⟨m, f, h1, ⟨e, h2, h3⟩ | ⟨m', h2, h3⟩⟩
    · rw [h2] at h
      obtain ⟨i1, i2⟩ := ih d h
      constructor
      · rintro m f ⟨l', hl, hf⟩
        rw [List.mem_cons] at hl
        rcases hl with rfl | hl
        · rw [h1] at hf; cases hf
        · exact i1 m f ⟨l', hl, hf⟩
      · exact fun m f hm => i2 m f (fun l' hl => hm l' (List.mem_cons_of_mem _ hl))
    · rw [h3] at h; cases h
    · rw [h3] at h
      obtain ⟨i1, i2⟩ := ih _ h
      constructor
      · rintro k g ⟨l', hl, hf⟩
        by_cases hk : ∃ l ∈ ls, l.ns = some (k, g)
        · exact i1 k g hk
        · rw [List.mem_cons] at hl
          rcases hl with rfl | hl
          · rw [h1] at hf
            cases hf
            refine ⟨m', h2, ?_⟩
            rw [i2 m f (fun l hl hf => hk ⟨l, hl, hf⟩), Dict.get?_set]
            simp
          · exact absurd ⟨l', hl, hf⟩ hk
      · intro k g hk
        rw [i2 k g (fun l' hl => hk l' (List.mem_cons_of_mem _ hl)), Dict.get?_set]
        have : (k, g) ≠ (m, f) := fun e => hk l (by simp) (by rw [e]; exact h1)
        rw [if_neg (by first | exact this | exact Ne.symm this)]

theorem fieldCorr_error (env : Env) (th : Thresholds) (names : List Str) (sm : Dict Str (Spec × Bool)) (mc : Dict Str Str) (ls : List LvarMeta)
    (d : Dict (Str × Str) Str) (e : Err) (h : fieldCorr env th names sm mc ls d = .error e) :
    ∃ l ∈ ls, ∃ m f, l.ns = some (m, f) ∧
      correctName env.lower env.score th.field f (fieldsFor env names sm ((mc.get? m).getD m)) = .error e := by
  induction ls generalizing d with
  | nil => cases h
  | cons l ls ih =>
    rw [fieldCorr] at h
    rcases fieldStep_cases env th names sm mc d l with ⟨h1, h2⟩ | ⟨m, f, h1, ⟨e', h2, h3⟩ | ⟨m', h2, h3⟩⟩
    · rw [h2] at h
      obtain ⟨l', hl, r⟩ := ih d h
      exact ⟨l', List.mem_cons_of_mem _ hl, r⟩
    · rw [h3] at h; cases h
      exact ⟨l, by simp, m, f, h1, h2⟩
    · rw [h3] at h
      obtain ⟨l', hl, r⟩ := ih _ h
      exact ⟨l', List.mem_cons_of_mem _ hl, r⟩

/-- The correction of a name of the OUT block, where there is one. -/
def corrected (env : Env) (t : Rat) (cands : List Str) (k : Str) : Str :=
  match correctName env.lower env.score t k cands with
  | .ok k' => k'
  | .error _ => k

theorem corrected_ok {env : Env} {t : Rat} {cands : List Str} {k k' : Str} (h : correctName env.lower env.score t k cands = .ok k') :
    corrected env t cands k = k' := by
  simp only [corrected, h]

theorem fixOut_ok (env : Env) (th : Thresholds) (names : List Str) (l : List (Str × OutVal)) (d d' : Dict Str OutVal)
    (h : fixOut env th names l d = .ok d') :
    (∀ kv ∈ l, correctName env.lower env.score th.spec kv.1 names = .ok (corrected env th.spec names kv.1)) ∧
    d' = (l.map (fun kv => (corrected env th.spec names kv.1, kv.2))).foldl (fun d kv => d.set kv.1 kv.2) d := by
  induction l generalizing d with
  | nil => cases h; exact ⟨fun _ h => (by cases h), rfl⟩
  | cons kv l ih =>
    obtain ⟨k, v⟩ := kv
    rw [fixOut] at h
    cases hc : correctName env.lower env.score th.spec k names with
    | error e => rw [hc] at h; cases h
    | ok k' =>
      rw [hc] at h
      obtain ⟨i1, i2⟩ := ih _ h
      refine ⟨?_, ?_⟩
      · intro kv hkv
        rw [List.mem_cons] at hkv
        rcases hkv with rfl | hkv
        · rw [corrected_ok hc]; exact hc
        · exact i1 kv hkv
      · rw [List.map_cons, List.foldl_cons, corrected_ok hc]
        exact i2

theorem fixOut_error (env : Env) (th : Thresholds) (names : List Str) (l : List (Str × OutVal)) (d : Dict Str OutVal) (e : Err)
    (h : fixOut env th names l d = .error e) : ∃ kv ∈ l, correctName env.lower env.score th.spec kv.1 names = .error e := by
  induction l generalizing d with
  | nil => cases h
  | cons kv l ih =>
    obtain ⟨k, v⟩ := kv
    rw [fixOut] at h
    cases hc : correctName env.lower env.score th.spec k names with
    | error e' => rw [hc] at h; cases h; exact ⟨(k, v), by simp, hc⟩
    | ok k' =>
      rw [hc] at h
      obtain ⟨kv, h1, h2⟩ := ih _ h
      exact ⟨kv, List.mem_cons_of_mem _ h1, h2⟩

/-- The dictionary of a list of entries, entered in order. -/
def setAll {β : Type} (l : List (Str × β)) : Dict Str β := l.foldl (fun (d : Dict Str β) kv => d.set kv.1 kv.2) []

theorem setAll_snoc {β : Type} (l : List (Str × β)) (x : Str × β) : setAll (l ++ [x]) = (setAll l).set x.1 x.2 := by
  simp [setAll, List.foldl_append]

theorem setAll_keys {β : Type} (l : List (Str × β)) : (setAll l).keys = (l.map Prod.fst).eraseDups := by
  generalize hr : l.reverse = r
  induction r generalizing l with
  | nil => rw [List.reverse_eq_nil_iff] at hr; subst hr; rfl
  | cons x r ih =>
    have hl : l = r.reverse ++ [x] := by rw [← List.reverse_reverse l, hr]; simp
    subst hl
    have ih' := ih r.reverse (by simp)
    rw [setAll_snoc, List.map_append, List.eraseDups_append, ← ih']
    have hmem : x.1 ∈ (setAll r.reverse).keys ↔ x.1 ∈ r.reverse.map Prod.fst := by
      rw [ih', List.mem_eraseDups]
    by_cases h : x.1 ∈ r.reverse.map Prod.fst
    · rw [Dict.keys_set_of_mem _ (hmem.2 h)]
      simp [List.removeAll, List.filter_cons] at h ⊢
      grind
    · rw [Dict.set_of_notMem _ (fun hh => h (hmem.1 hh))]
      have : [x.1].removeAll (r.reverse.map Prod.fst) = [x.1] := by
        simp [List.removeAll, List.filter_cons] at h ⊢
        grind
      simp only [List.map_cons, List.map_nil, this]
      rw [Dict.keys_append]
      rfl

theorem setAll_wf {β : Type} (l : List (Str × β)) : Dict.WF (setAll l) := by
  generalize hr : l.reverse = r
  induction r generalizing l with
  | nil => rw [List.reverse_eq_nil_iff] at hr; subst hr; exact List.nodup_nil
  | cons x r ih =>
    have hl : l = r.reverse ++ [x] := by rw [← List.reverse_reverse l, hr]; simp
    subst hl
    rw [setAll_snoc]
    exact Dict.set_wf (ih r.reverse (by simp)) _ _

theorem nodup_erased (l : List Str) : l.eraseDups.Nodup := by
  have h := setAll_wf (l.map (fun k => (k, ())))
  unfold Dict.WF at h
  rw [setAll_keys, List.map_map] at h
  have e : List.map (Prod.fst ∘ fun k : Str => (k, ())) l = l := by
    conv => rhs; rw [← List.map_id l]
    rfl
  rw [e] at h
  exact h

theorem setAll_get {β : Type} (l : List (Str × β)) (k : Str) (v : β) :
    (setAll l).get? k = some v ↔ ∃ pre post, l = pre ++ (k, v) :: post ∧ ∀ kv ∈ post, kv.1 ≠ k := by
  generalize hr : l.reverse = r
  induction r generalizing l with
  | nil =>
    rw [List.reverse_eq_nil_iff] at hr; subst hr
    refine ⟨fun h => (by cases h), ?_⟩
    rintro ⟨pre, post, h, _⟩; simp at h
  | cons x r ih =>
    have hl : l = r.reverse ++ [x] := by rw [← List.reverse_reverse l, hr]; simp
    subst hl
    rw [setAll_snoc, Dict.get?_set]
    have ih' := ih r.reverse (by simp)
    generalize r.reverse = ss at ih' ⊢
    obtain ⟨j, w⟩ := x
    constructor
    · intro h
      split at h
      · next e => cases h; exact ⟨ss, [], by simpa using e, by simp⟩
      · next e =>
        obtain ⟨pre, post, rfl, h2⟩ := ih'.1 h
        refine ⟨pre, post ++ [(j, w)], by simp, ?_⟩
        intro kv hkv
        rw [List.mem_append, List.mem_singleton] at hkv
        rcases hkv with hkv | rfl
        · exact h2 kv hkv
        · exact fun e' => e (by first | exact e' | exact e'.symm)
    · rintro ⟨pre, post, h1, h2⟩
      rcases List.eq_nil_or_concat post with rfl | ⟨p, u, rfl⟩
      · have := List.append_inj' h1 rfl
        cases this.2
        simp
      · have h' : ss ++ [(j, w)] = (pre ++ (k, v) :: p) ++ [u] := by rw [h1]; simp
        have := List.append_inj' h' rfl
        cases this.2
        have hne := h2 (j, w) (by simp)
        rw [if_neg (by first | exact hne | exact Ne.symm hne)]
        exact ih'.2 ⟨pre, p, this.1, fun kv hkv => h2 kv (by simp [hkv])⟩

theorem fixRefs_ok (env : Env) (th : Thresholds) (avail : List Str) (ns ns' : List Str) (h : fixRefs env th avail ns = .ok ns') :
    (∀ n ∈ ns, correctName env.lower env.score th.lvar n avail = .ok (corrected env th.lvar avail n)) ∧
    ns' = ns.map (corrected env th.lvar avail) := by
  induction ns generalizing ns' with
  | nil => cases h; exact ⟨fun _ h => (by cases h), rfl⟩
  | cons n ns ih =>
    rw [fixRefs] at h
    cases hc : correctName env.lower env.score th.lvar n avail with
    | error e => rw [hc] at h; cases h
    | ok n' =>
      rw [hc] at h
      cases hr : fixRefs env th avail ns with
      | error e => rw [hr] at h; cases h
      | ok r =>
        rw [hr] at h
        cases h
        obtain ⟨i1, i2⟩ := ih r hr
        refine ⟨?_, by rw [List.map_cons, corrected_ok hc, ← i2]⟩
        intro m hm
        rw [List.mem_cons] at hm
        rcases hm with rfl | hm
        · rw [corrected_ok hc]; exact hc
        · exact i1 m hm

theorem fixRefs_error (env : Env) (th : Thresholds) (avail : List Str) (ns : List Str) (e : Err) (h : fixRefs env th avail ns = .error e) :
    ∃ n ∈ ns, correctName env.lower env.score th.lvar n avail = .error e := by
  induction ns with
  | nil => cases h
  | cons n ns ih =>
    rw [fixRefs] at h
    cases hc : correctName env.lower env.score th.lvar n avail with
    | error e' => rw [hc] at h; cases h; exact ⟨n, by simp, hc⟩
    | ok n' =>
      rw [hc] at h
      cases hr : fixRefs env th avail ns with
      | error e' =>
        rw [hr] at h; cases h
        obtain ⟨m, h1, h2⟩ := ih hr
        exact ⟨m, List.mem_cons_of_mem _ h1, h2⟩
      | ok r => rw [hr] at h; cases h

theorem fixVal_ok (env : Env) (th : Thresholds) (avail : List Str) (v v' : OutVal) (h : fixVal env th avail v = .ok v') :
    ValFix env th (· ∈ avail) v v' := by
  unfold fixVal at h
  cases v with
  | refs ns =>
    simp only at h
    cases hr : fixRefs env th avail ns with
    | error e => rw [hr] at h; cases h
    | ok r =>
      rw [hr] at h; cases h
      obtain ⟨i1, i2⟩ := fixRefs_ok env th avail ns r hr
      exact Or.inl ⟨ns, corrected env th.lvar avail, rfl, by rw [i2], fun n hn => (corrects_iff ..).1 (i1 n hn)⟩
  | str => cases h; exact Or.inr ⟨fun _ => (by simp), rfl⟩
  | num => cases h; exact Or.inr ⟨fun _ => (by simp), rfl⟩
  | bool => cases h; exact Or.inr ⟨fun _ => (by simp), rfl⟩

theorem corrects_unique {env : Env} {t : Rat} {P : Str → Prop} {a b c : Str} (hb : Corrects env t P a b) (hc : Corrects env t P a c) : b = c := by
  rcases hb with ⟨h1, rfl⟩ | ⟨h1, h2, h3, h4, h5, h6⟩
  · rcases hc with ⟨_, rfl⟩ | ⟨h, _⟩
    · rfl
    · exact absurd h1 h
  · rcases hc with ⟨h, _⟩ | ⟨_, _, _, g4, g5, g6⟩
    · exact absurd h h1
    · apply Classical.byContradiction
      intro hbc
      have e1 := h6 c g4 (Ne.symm hbc) g5
      have e2 := g6 b h4 hbc h5
      grind

theorem valFix_ok (env : Env) (th : Thresholds) (avail : List Str) (v v' : OutVal) (h : ValFix env th (· ∈ avail) v v') (w : OutVal)
    (hw : fixVal env th avail v = .ok w) : v' = w := by
  have h2 := fixVal_ok env th avail v w hw
  rcases h with ⟨ns, g, h1, h3, h4⟩ | ⟨h1, h3⟩
  · rcases h2 with ⟨ns2, g2, k1, k3, k4⟩ | ⟨k1, k3⟩
    · rw [h1] at k1
      cases k1
      rw [h3, k3]
      congr 1
      exact List.map_congr_left (fun n hn => corrects_unique (h4 n hn) (k4 n hn))
    · exact absurd h1 (k1 ns)
  · rcases h2 with ⟨ns2, g2, k1, k3, k4⟩ | ⟨k1, k3⟩
    · exact absurd k1 (h1 ns2)
    · rw [h3, k3]

theorem fixVals_ok (env : Env) (th : Thresholds) (avail : List Str) (l : List (Str × OutVal)) (d : Dict Str OutVal)
    (h : fixVals env th avail l = .ok d) :
    (∀ k v, Dict.get? l k = some v → ∃ v', fixVal env th avail v = .ok v' ∧ d.get? k = some v') ∧
    (∀ k v', d.get? k = some v' → ∃ v, Dict.get? l k = some v ∧ fixVal env th avail v = .ok v') := by
  induction l generalizing d with
  | nil => cases h; exact ⟨fun k v h => (by cases h), fun k v h => (by cases h)⟩
  | cons kv l ih =>
    obtain ⟨j, w⟩ := kv
    rw [fixVals] at h
    cases hc : fixVal env th avail w with
    | error e => rw [hc] at h; cases h
    | ok w' =>
      rw [hc] at h
      cases hr : fixVals env th avail l with
      | error e => rw [hr] at h; cases h
      | ok d' =>
        rw [hr] at h
        cases h
        obtain ⟨i1, i2⟩ := ih d' hr
        constructor
        · intro k v hk
          rw [Dict.get?_cons] at hk ⊢
          split at hk
          · next e => cases hk; exact ⟨w', hc, by rw [if_pos e]⟩
          · next e => rw [if_neg e]; exact i1 k v hk
        · intro k v hk
          rw [Dict.get?_cons] at hk ⊢
          split at hk
          · next e => cases hk; exact ⟨w, by rw [if_pos e], hc⟩
          · next e => rw [if_neg e]; exact i2 k v hk

theorem fixVals_error (env : Env) (th : Thresholds) (avail : List Str) (l : List (Str × OutVal)) (e : Err)
    (h : fixVals env th avail l = .error e) :
    ∃ k ns, (k, OutVal.refs ns) ∈ l ∧ ∃ n ∈ ns, correctName env.lower env.score th.lvar n avail = .error e := by
  induction l with
  | nil => cases h
  | cons kv l ih =>
    obtain ⟨j, w⟩ := kv
    rw [fixVals] at h
    cases hc : fixVal env th avail w with
    | error e' =>
      rw [hc] at h
      cases h
      unfold fixVal at hc
      cases w with
      | refs ns =>
        simp only at hc
        cases hr : fixRefs env th avail ns with
        | error e' => rw [hr] at hc; cases hc; exact ⟨j, ns, by simp, fixRefs_error env th avail ns e hr⟩
        | ok r => rw [hr] at hc; cases hc
      | str => cases hc
      | num => cases hc
      | bool => cases hc
    | ok w' =>
      rw [hc] at h
      cases hr : fixVals env th avail l with
      | error e' =>
        rw [hr] at h; cases h
        obtain ⟨k, ns, h1, h2⟩ := ih hr
        exact ⟨k, ns, List.mem_cons_of_mem _ h1, h2⟩
      | ok d' => rw [hr] at h; cases h

theorem mapVals_keys {β γ : Type} (f : β → γ) (d : Dict Str β) : (mapVals f d).keys = d.keys := by
  unfold mapVals Dict.keys
  rw [List.map_map]
  rfl

theorem mapVals_get {β γ : Type} (f : β → γ) (d : Dict Str β) (i : Nat) (h : i < d.length) (h' : i < (mapVals f d).length) :
    (mapVals f d)[i].2 = f (d[i].2) := by
  have e := List.getElem_map (l := d) (i := i) (fun kv : Str × β => (kv.1, f kv.2)) (h := h')
  show ((d.map (fun kv : Str × β => (kv.1, f kv.2)))[i]'h').2 = _
  rw [e]

section
variable {env : Env} {th : Thresholds} {specs : List Spec} {names : List Str} {lvars : Dict Str LvarMeta} {mc : Dict Str Str}
  {fc : Dict (Str × Str) Str}

/-- The pair of corrections found for the model and field of an lvar. -/
theorem nsFix_of (hm : modelCorr env th (specMap env.opName specs) (lvars.map Prod.snd) [] = .ok mc)
    (hf : fieldCorr env th names (specMap env.opName specs) mc (lvars.map Prod.snd) [] = .ok fc)
    (m f : Str) (h : ∃ l ∈ lvars.map Prod.snd, l.ns = some (m, f)) :
    ∃ m' f', mc.get? m = some m' ∧ fc.get? (m, f) = some f' ∧ NsFix env th specs names m f m' f' := by
  obtain ⟨l, hl, hns⟩ := h
  obtain ⟨m', h1, h2⟩ := (modelCorr_ok env th _ _ _ _ hm).1 m ⟨l, hl, f, hns⟩
  obtain ⟨f', h3, h4⟩ := (fieldCorr_ok env th names _ mc _ _ _ hf).1 m f ⟨l, hl, hns⟩
  refine ⟨m', f', h2, h4, ?_, ?_⟩
  · exact (corrects_congr env th.model (fun w => (known_iff env specs names w).symm) m m').1 ((corrects_iff ..).1 h1)
  · rw [h2] at h3
    have hk : m' ∈ (specMap env.opName specs).keys := correctName_mem h1
    obtain ⟨e, he⟩ := Option.isSome_iff_exists.1 ((Dict.get?_isSome_iff _ _).2 hk)
    refine ⟨expectedFields env names e, (fields_iff ..).2 ⟨e, he, rfl⟩, ?_⟩
    have : fieldsFor env names (specMap env.opName specs) ((some m').getD m) = expectedFields env names e := by
      show fieldsFor env names (specMap env.opName specs) m' = _
      simp only [fieldsFor, he]
    rw [this] at h3
    exact (corrects_iff ..).1 h3

theorem lvarFix_of (hm : modelCorr env th (specMap env.opName specs) (lvars.map Prod.snd) [] = .ok mc)
    (hf : fieldCorr env th names (specMap env.opName specs) mc (lvars.map Prod.snd) [] = .ok fc)
    (l : LvarMeta) (hl : l ∈ lvars.map Prod.snd) : LvarFix env th specs names l (fixLvar mc fc l) := by
  cases hns : l.ns with
  | none => exact Or.inl ⟨hns, by simp only [fixLvar, hns]⟩
  | some mf =>
    obtain ⟨m, f⟩ := mf
    obtain ⟨m', f', h1, h2, h3⟩ := nsFix_of hm hf m f ⟨l, hl, hns⟩
    refine Or.inr ⟨m, f, m', f', hns, h3, ?_⟩
    simp only [fixLvar, hns, h1, h2, Option.getD_some]

theorem lactFix_of (hm : modelCorr env th (specMap env.opName specs) (lvars.map Prod.snd) [] = .ok mc)
    (hf : fieldCorr env th names (specMap env.opName specs) mc (lvars.map Prod.snd) [] = .ok fc)
    (l : LactMeta) : LactFix env th specs names (lvars.map Prod.snd) l (fixLact mc fc l) := by
  have hm1 : ∀ m, (∃ x ∈ lvars.map Prod.snd, ∃ f, x.ns = some (m, f)) →
      ∃ m', Corrects env th.model (Known env specs names) m m' ∧ mc.get? m = some m' := by
    rintro m ⟨x, hx, f, hns⟩
    obtain ⟨m', f', h1, h2, h3⟩ := nsFix_of hm hf m f ⟨x, hx, hns⟩
    exact ⟨m', h3.1, h1⟩
  have hm2 : ∀ m, (∀ x ∈ lvars.map Prod.snd, ∀ f, x.ns ≠ some (m, f)) → mc.get? m = none :=
    fun m h => (modelCorr_ok env th _ _ _ _ hm).2 m h
  have hf2 : ∀ m f, (∀ x ∈ lvars.map Prod.snd, x.ns ≠ some (m, f)) → fc.get? (m, f) = none :=
    fun m f h => (fieldCorr_ok env th names _ mc _ _ _ hf).2 m f h
  obtain ⟨mo, fi, c⟩ := l
  cases mo with
  | none => exact Or.inl ⟨Or.inl rfl, by cases fi <;> rfl⟩
  | some m =>
    by_cases hne : m = []
    · subst hne
      exact Or.inl ⟨Or.inr rfl, by cases fi <;> rfl⟩
    · right
      cases m with
      | nil => exact absurd rfl hne
      | cons a b =>
        refine ⟨a :: b, rfl, hne, by cases fi <;> rfl, ?_, ?_, ?_, ?_, ?_⟩
        · intro hx
          obtain ⟨m', h1, h2⟩ := hm1 _ hx
          refine ⟨m', h1, ?_⟩
          cases fi <;> simp [fixLact, h2]
        · intro hx
          have h2 := hm2 _ hx
          cases fi <;> simp [fixLact, h2]
        · intro f hf' hx
          simp only at hf'
          subst hf'
          obtain ⟨m', f', h1, h2, h3⟩ := nsFix_of hm hf (a :: b) f hx
          exact ⟨m', f', h3, by simp [fixLact, h2]⟩
        · intro f hf' hx
          simp only at hf'
          subst hf'
          have h2 := hf2 _ _ hx
          simp [fixLact, h2]
        · intro hf'
          simp only at hf'
          subst hf'
          simp [fixLact]

end

/-- A successful correction is one in the sense of the specification. -/
theorem correctAll_corrected (env : Env) (th : Thresholds) (specs : List Spec) (names : List Str) (x y : Fixed)
    (h : correctAll env th names (specMap env.opName specs) x.out x.lvars x.lacts = .ok y) : Corrected env th specs names x y := by
  unfold correctAll at h
  cases hm : modelCorr env th (specMap env.opName specs) (x.lvars.map Prod.snd) [] with
  | error e => rw [hm] at h; cases h
  | ok mc =>
    rw [hm] at h
    cases hf : fieldCorr env th names (specMap env.opName specs) mc (x.lvars.map Prod.snd) [] with
    | error e => simp only [hf] at h; cases h
    | ok fc =>
      simp only [hf] at h
      unfold correctOut at h
      cases ho : fixOut env th names x.out [] with
      | error e => rw [ho] at h; cases h
      | ok out1 =>
        rw [ho] at h
        cases hv : fixVals env th ((mapVals (fixLvar mc fc) x.lvars).keys ++ (mapVals (fixLact mc fc) x.lacts).keys) out1 with
        | error e => simp only [hv] at h; cases h
        | ok out2 =>
          simp only [hv] at h
          cases h
          refine ⟨⟨mapVals_keys .., ?_⟩, ⟨mapVals_keys .., ?_⟩, corrected env th.spec names, ?_, ?_, ?_⟩
          · intro i h1 h2
            rw [mapVals_get _ _ i h1 h2]
            exact lvarFix_of hm hf _ (List.mem_map.2 ⟨_, List.getElem_mem h1, rfl⟩)
          · intro i h1 h2
            rw [mapVals_get _ _ i h1 h2]
            exact lactFix_of hm hf _
          · intro k hk
            obtain ⟨kv, hkv, rfl⟩ := List.mem_map.1 hk
            exact (corrects_iff ..).1 ((fixOut_ok env th names _ _ _ ho).1 kv hkv)
          · have e1 := (fixOut_ok env th names _ _ _ ho).2
            have e2 : out1 = setAll (x.out.map (fun kv => (corrected env th.spec names kv.1, kv.2))) := e1
            rw [fixVals_keys _ _ _ _ _ hv, e2, setAll_keys, Dict.keys, List.map_map, List.map_map]
            rfl
          · intro k' v'
            have e2 : out1 = setAll (x.out.map (fun kv => (corrected env th.spec names kv.1, kv.2))) :=
              (fixOut_ok env th names _ _ _ ho).2
            have hg : ∀ v, Dict.get? out1 k' = some v ↔ ∃ pre k post, x.out = pre ++ (k, v) :: post ∧
                corrected env th.spec names k = k' ∧ ∀ kv ∈ post, corrected env th.spec names kv.1 ≠ k' := by
              intro v
              rw [e2, setAll_get]
              constructor
              · rintro ⟨pre, post, h1, h2⟩
                obtain ⟨p, q, h0, rfl, h3⟩ := List.map_eq_append_iff.1 h1
                obtain ⟨⟨k, w⟩, q', rfl, h4, rfl⟩ := List.map_eq_cons_iff.1 h3
                simp only [Prod.mk.injEq] at h4
                obtain ⟨h4, rfl⟩ := h4
                exact ⟨p, k, q', h0, h4, fun kv hkv => h2 _ (List.mem_map.2 ⟨kv, hkv, rfl⟩)⟩
              · rintro ⟨pre, k, post, h1, h2, h3⟩
                refine ⟨pre.map (fun kv => (corrected env th.spec names kv.1, kv.2)),
                  post.map (fun kv => (corrected env th.spec names kv.1, kv.2)), by rw [h1]; simp [h2], ?_⟩
                intro kv hkv
                obtain ⟨u, hu, rfl⟩ := List.mem_map.1 hkv
                exact h3 u hu
            have havail : ∀ w w', ValFix env th (fun n => n ∈ x.lvars.keys ∨ n ∈ x.lacts.keys) w w' ↔
                ValFix env th (· ∈ (mapVals (fixLvar mc fc) x.lvars).keys ++ (mapVals (fixLact mc fc) x.lacts).keys) w w' := by
              intro w w'
              have : (fun n => n ∈ x.lvars.keys ∨ n ∈ x.lacts.keys) =
                  (· ∈ (mapVals (fixLvar mc fc) x.lvars).keys ++ (mapVals (fixLact mc fc) x.lacts).keys) := by
                funext n
                rw [mapVals_keys, mapVals_keys, List.mem_append]
              rw [this]
            obtain ⟨v1, v2⟩ := fixVals_ok env th _ _ _ hv
            constructor
            · intro hk
              obtain ⟨v, h1, h2⟩ := v2 k' v' hk
              obtain ⟨pre, k, post, a, b, c⟩ := (hg v).1 h1
              exact ⟨pre, k, v, post, a, b, c, (havail v v').2 (fixVal_ok env th _ v v' h2)⟩
            · rintro ⟨pre, k, v, post, a, b, c, d⟩
              obtain ⟨w, h1, h2⟩ := v1 k' v ((hg v).2 ⟨pre, k, post, a, b, c⟩)
              rw [h2, valFix_ok env th _ v v' ((havail v v').1 d) w h1]

/-- A name of the program has no correction: `e` is the error raised for it. -/
def Uncorrectable (env : Env) (th : Thresholds) (specs : List Spec) (names : List Str) (x : Fixed) (e : Err) : Prop :=
  (∃ l ∈ x.lvars.map Prod.snd, ∃ m f ms, l.ns = some (m, f) ∧ (∀ k, k ∈ ms ↔ Known env specs names k) ∧
    correctName env.lower env.score th.model m ms = .error e) ∨
  (∃ l ∈ x.lvars.map Prod.snd, ∃ m f m' fs, l.ns = some (m, f) ∧ Corrects env th.model (Known env specs names) m m' ∧
    ModelFields env specs names m' fs ∧ correctName env.lower env.score th.field f fs = .error e) ∨
  (∃ k ∈ x.out.keys, correctName env.lower env.score th.spec k names = .error e) ∨
  (∃ pre k k' ns post, x.out = pre ++ (k, OutVal.refs ns) :: post ∧ Corrects env th.spec (· ∈ names) k k' ∧
    (∀ kv ∈ post, ¬ Corrects env th.spec (· ∈ names) kv.1 k') ∧
    ∃ n ∈ ns, correctName env.lower env.score th.lvar n (x.lvars.keys ++ x.lacts.keys) = .error e)

theorem correctAll_error (env : Env) (th : Thresholds) (specs : List Spec) (names : List Str) (x : Fixed) (e : Err)
    (h : correctAll env th names (specMap env.opName specs) x.out x.lvars x.lacts = .error e) :
    Uncorrectable env th specs names x e := by
  unfold correctAll at h
  cases hm : modelCorr env th (specMap env.opName specs) (x.lvars.map Prod.snd) [] with
  | error e' =>
    rw [hm] at h
    cases h
    obtain ⟨l, hl, m, f, h1, h2⟩ := modelCorr_error env th _ _ _ _ hm
    exact Or.inl ⟨l, hl, m, f, _, h1, fun k => (known_iff env specs names k).symm, h2⟩
  | ok mc =>
    rw [hm] at h
    cases hf : fieldCorr env th names (specMap env.opName specs) mc (x.lvars.map Prod.snd) [] with
    | error e' =>
      simp only [hf] at h
      cases h
      obtain ⟨l, hl, m, f, h1, h2⟩ := fieldCorr_error env th names _ mc _ _ _ hf
      obtain ⟨m', h3, h4⟩ := (modelCorr_ok env th _ _ _ _ hm).1 m ⟨l, hl, f, h1⟩
      rw [h4] at h2
      have hk : m' ∈ (specMap env.opName specs).keys := correctName_mem h3
      obtain ⟨q, hq⟩ := Option.isSome_iff_exists.1 ((Dict.get?_isSome_iff _ _).2 hk)
      refine Or.inr (Or.inl ⟨l, hl, m, f, m', expectedFields env names q, h1, ?_, (fields_iff ..).2 ⟨q, hq, rfl⟩, ?_⟩)
      · exact (corrects_congr env th.model (fun w => (known_iff env specs names w).symm) m m').1 ((corrects_iff ..).1 h3)
      · have : fieldsFor env names (specMap env.opName specs) ((some m').getD m) = expectedFields env names q := by
          show fieldsFor env names (specMap env.opName specs) m' = _
          simp only [fieldsFor, hq]
        rw [this] at h2
        exact h2
    | ok fc =>
      simp only [hf] at h
      unfold correctOut at h
      cases ho : fixOut env th names x.out [] with
      | error e' =>
        rw [ho] at h
        cases h
        obtain ⟨kv, h1, h2⟩ := fixOut_error env th names _ _ _ ho
        exact Or.inr (Or.inr (Or.inl ⟨kv.1, List.mem_map.2 ⟨kv, h1, rfl⟩, h2⟩))
      | ok out1 =>
        rw [ho] at h
        cases hv : fixVals env th ((mapVals (fixLvar mc fc) x.lvars).keys ++ (mapVals (fixLact mc fc) x.lacts).keys) out1 with
        | ok out2 => simp only [hv] at h; cases h
        | error e' =>
          simp only [hv] at h
          cases h
          obtain ⟨k, ns, h1, n, h2, h3⟩ := fixVals_error env th _ _ _ hv
          rw [mapVals_keys, mapVals_keys] at h3
          have e2 : out1 = setAll (x.out.map (fun kv => (corrected env th.spec names kv.1, kv.2))) :=
            (fixOut_ok env th names _ _ _ ho).2
          have hwf : Dict.WF out1 := by
            unfold Dict.WF
            rw [e2, setAll_keys]
            exact nodup_erased _
          have h4 := Dict.get?_of_mem hwf h1
          rw [e2, setAll_get] at h4
          obtain ⟨pre, post, h5, h6⟩ := h4
          obtain ⟨p, q, h0, rfl, h7⟩ := List.map_eq_append_iff.1 h5
          obtain ⟨⟨j, w⟩, q', rfl, h8, rfl⟩ := List.map_eq_cons_iff.1 h7
          simp only [Prod.mk.injEq] at h8
          obtain ⟨h8, rfl⟩ := h8
          have hc : ∀ kv ∈ x.out, Corrects env th.spec (· ∈ names) kv.1 (corrected env th.spec names kv.1) :=
            fun kv hkv => (corrects_iff ..).1 ((fixOut_ok env th names _ _ _ ho).1 kv hkv)
          refine Or.inr (Or.inr (Or.inr ⟨p, j, k, ns, q', h0, ?_, ?_, n, h2, h3⟩))
          · rw [← h8]
            exact hc (j, OutVal.refs ns) (by rw [h0]; simp)
          · intro kv hkv hk
            have e3 := corrects_unique hk (hc kv (by rw [h0]; simp [hkv]))
            exact h6 _ (List.mem_map.2 ⟨kv, hkv, rfl⟩) e3.symm

/-! ## C215 -/

/-- **C215**.  With a threshold below 1, what `parse_lndl_fuzzy` returns is what the strict resolver returns for the corrected program:
every model, field, spec name and reference replaced by its correction (C52), values, raw lvars, literals and everything else kept. -/
theorem C215_corrected (env : Env) (ext : Ext ν κ μ) (th : Thresholds) (hth : th.main < 1) (specs : List Spec) (names : List Str)
    (x : Fixed) (o : Output ν κ μ) (h : fuzzyCore env ext th specs names x = .ok o) :
    ∃ y, Corrected env th specs names x y ∧ Resolver.resolve ext y.out y.lvars y.lacts specs = .ok o := by
  unfold fuzzyCore at h
  rw [if_neg (by grind)] at h
  split at h
  · cases h
  · next y hy => exact ⟨y, correctAll_corrected env th specs names x y hy, runStrict_ok h⟩

/-- **C215**, failures.  It raises only if a name of the program has no correction, with the error of that correction, or if the strict
resolver raises for the corrected program. -/
theorem C215_errors (env : Env) (ext : Ext ν κ μ) (th : Thresholds) (hth : th.main < 1) (specs : List Spec) (names : List Str)
    (x : Fixed) (e : Err) (h : fuzzyCore env ext th specs names x = .error e) :
    Uncorrectable env th specs names x e ∨
    ∃ y r, Corrected env th specs names x y ∧ Resolver.resolve ext y.out y.lvars y.lacts specs = .error r ∧ e = .strict r := by
  unfold fuzzyCore at h
  rw [if_neg (by grind)] at h
  split at h
  · next e' he => cases h; exact Or.inl (correctAll_error env th specs names x e he)
  · next y hy =>
    refine Or.inr ⟨y, ?_⟩
    unfold runStrict at h
    split at h
    · cases h
    · next r hr => cases h; exact ⟨r, correctAll_corrected env th specs names x y hy, hr, rfl⟩

theorem modelFields_unique {env : Env} {specs : List Spec} {names : List Str} {m : Str} {a b : List Str}
    (ha : ModelFields env specs names m a) (hb : ModelFields env specs names m b) : a = b := by
  obtain ⟨e, h1, rfl⟩ := (fields_iff ..).1 ha
  obtain ⟨e', h2, rfl⟩ := (fields_iff ..).1 hb
  rw [h1] at h2
  cases h2
  rfl

theorem nsFix_unique {env : Env} {th : Thresholds} {specs : List Spec} {names : List Str} {m f a b a' b' : Str}
    (h : NsFix env th specs names m f a b) (h' : NsFix env th specs names m f a' b') : a = a' ∧ b = b' := by
  obtain ⟨h1, fs, h2, h3⟩ := h
  obtain ⟨k1, fs', k2, k3⟩ := h'
  have e := corrects_unique h1 k1
  subst e
  have e := modelFields_unique h2 k2
  subst e
  exact ⟨rfl, corrects_unique h3 k3⟩

theorem lvarFix_unique {env : Env} {th : Thresholds} {specs : List Spec} {names : List Str} {l a b : LvarMeta}
    (h : LvarFix env th specs names l a) (h' : LvarFix env th specs names l b) : a = b := by
  rcases h with ⟨h1, rfl⟩ | ⟨m, f, m', f', h1, h2, rfl⟩
  · rcases h' with ⟨_, rfl⟩ | ⟨m, f, m', f', k1, _⟩
    · rfl
    · rw [h1] at k1; cases k1
  · rcases h' with ⟨k1, _⟩ | ⟨n, g, n', g', k1, k2, rfl⟩
    · rw [h1] at k1; cases k1
    · rw [h1] at k1
      cases k1
      obtain ⟨rfl, rfl⟩ := nsFix_unique h2 k2
      rfl

theorem lactFix_unique {env : Env} {th : Thresholds} {specs : List Spec} {names : List Str} {lv : List LvarMeta} {l a b : LactMeta}
    (h : LactFix env th specs names lv l a) (h' : LactFix env th specs names lv l b) : a = b := by
  rcases h with ⟨h1, rfl⟩ | ⟨m, h1, h2, h3, h4, h5, h6, h7, h8⟩
  · rcases h' with ⟨_, rfl⟩ | ⟨m, k1, k2, _⟩
    · rfl
    · rcases h1 with h1 | h1 <;> rw [h1] at k1 <;> cases k1
      exact absurd rfl k2
  · rcases h' with ⟨k1, _⟩ | ⟨m', k1, k2, k3, k4, k5, k6, k7, k8⟩
    · rcases k1 with k1 | k1 <;> rw [h1] at k1 <;> cases k1
      exact absurd rfl h2
    · rw [h1] at k1
      cases k1
      have em : a.model = b.model := by
        by_cases hx : ∃ x ∈ lv, ∃ f, x.ns = some (m, f)
        · obtain ⟨p, p1, p2⟩ := h4 hx
          obtain ⟨q, q1, q2⟩ := k4 hx
          rw [p2, q2, corrects_unique p1 q1]
        · have hx' : ∀ x ∈ lv, ∀ f, x.ns ≠ some (m, f) := fun x hx1 f hx2 => hx ⟨x, hx1, f, hx2⟩
          rw [h5 hx', k5 hx']
      have ef : a.field = b.field := by
        cases hf : l.field with
        | none => rw [h8 hf, k8 hf]
        | some f =>
          by_cases hx : ∃ x ∈ lv, x.ns = some (m, f)
          · obtain ⟨p, p', p1, p2⟩ := h6 f hf hx
            obtain ⟨q, q', q1, q2⟩ := k6 f hf hx
            rw [p2, q2, (nsFix_unique p1 q1).2]
          · have hx' : ∀ x ∈ lv, x.ns ≠ some (m, f) := fun x hx1 hx2 => hx ⟨x, hx1, hx2⟩
            rw [h7 f hf hx', k7 f hf hx']
      obtain ⟨a1, a2, a3⟩ := a
      obtain ⟨b1, b2, b3⟩ := b
      simp only at h3 k3 em ef
      rw [em, ef, h3, k3]

theorem valFix_unique {env : Env} {th : Thresholds} {P : Str → Prop} {v a b : OutVal} (h : ValFix env th P v a) (h' : ValFix env th P v b) :
    a = b := by
  rcases h with ⟨ns, g, h1, h3, h4⟩ | ⟨h1, h3⟩
  · rcases h' with ⟨ns2, g2, k1, k3, k4⟩ | ⟨k1, k3⟩
    · rw [h1] at k1
      cases k1
      rw [h3, k3]
      congr 1
      exact List.map_congr_left (fun n hn => corrects_unique (h4 n hn) (k4 n hn))
    · exact absurd h1 (k1 ns)
  · rcases h' with ⟨ns2, g2, k1, k3, k4⟩ | ⟨k1, k3⟩
    · exact absurd k1 (h1 ns2)
    · rw [h3, k3]

theorem dict_ext {β : Type} (d e : Dict Str β) (hk : d.keys = e.keys) (hv : ∀ i (h : i < d.length) (h' : i < e.length), d[i].2 = e[i].2) :
    d = e := by
  have hl : d.length = e.length := by
    have := congrArg List.length hk
    simpa [Dict.keys] using this
  apply List.ext_getElem hl
  intro i h1 h2
  apply Prod.ext
  · have := congrArg (fun l => l[i]?) hk
    simp only [Dict.keys, List.getElem?_map] at this
    rw [List.getElem?_eq_getElem h1, List.getElem?_eq_getElem h2] at this
    simpa using this
  · exact hv i h1 h2

/-- A program has at most one correction. -/
theorem corrected_unique {env : Env} {th : Thresholds} {specs : List Spec} {names : List Str} {x y z : Fixed}
    (hy : Corrected env th specs names x y) (hz : Corrected env th specs names x z) : y = z := by
  obtain ⟨⟨y1, y2⟩, ⟨y3, y4⟩, g, y5, y6, y7⟩ := hy
  obtain ⟨⟨z1, z2⟩, ⟨z3, z4⟩, g', z5, z6, z7⟩ := hz
  have len : ∀ {β γ : Type} (d : Dict Str β) (e : Dict Str γ), d.keys = e.keys → d.length = e.length := by
    intro β γ d e h
    have := congrArg List.length h
    simpa [Dict.keys] using this
  have eg : ∀ k ∈ x.out.keys, g k = g' k := fun k hk => corrects_unique (y5 k hk) (z5 k hk)
  have e1 : y.lvars = z.lvars := dict_ext _ _ (y1.trans z1.symm) (fun i h h' => by
    have hi : i < x.lvars.length := by rw [← len _ _ y1]; exact h
    exact lvarFix_unique (y2 i hi h) (z2 i hi h'))
  have e2 : y.lacts = z.lacts := dict_ext _ _ (y3.trans z3.symm) (fun i h h' => by
    have hi : i < x.lacts.length := by rw [← len _ _ y3]; exact h
    exact lactFix_unique (y4 i hi h) (z4 i hi h'))
  have ek : y.out.keys = z.out.keys := by
    rw [y6, z6]
    congr 1
    exact List.map_congr_left eg
  have e3 : y.out = z.out := by
    refine Dict.ext_of_keys_get? (by unfold Dict.WF; rw [y6]; exact nodup_erased _) ek ?_
    intro k
    have hyz : ∀ v, y.out.get? k = some v → z.out.get? k = some v := by
      intro v hv
      obtain ⟨pre, j, w, post, a, b, c, d⟩ := (y7 k v).1 hv
      have mem : ∀ u ∈ (j, w) :: post, u.1 ∈ x.out.keys := fun u hu => List.mem_map.2 ⟨u, by rw [a]; exact List.mem_append_right _ hu, rfl⟩
      refine (z7 k v).2 ⟨pre, j, w, post, a, ?_, ?_, d⟩
      · rw [← eg j (mem (j, w) (by simp))]; exact b
      · intro u hu
        rw [← eg u.1 (mem u (by simp [hu]))]
        exact c u hu
    have hzy : ∀ v, z.out.get? k = some v → y.out.get? k = some v := by
      intro v hv
      obtain ⟨pre, j, w, post, a, b, c, d⟩ := (z7 k v).1 hv
      have mem : ∀ u ∈ (j, w) :: post, u.1 ∈ x.out.keys := fun u hu => List.mem_map.2 ⟨u, by rw [a]; exact List.mem_append_right _ hu, rfl⟩
      refine (y7 k v).2 ⟨pre, j, w, post, a, ?_, ?_, d⟩
      · rw [eg j (mem (j, w) (by simp))]; exact b
      · intro u hu
        rw [eg u.1 (mem u (by simp [hu]))]
        exact c u hu
    cases h : y.out.get? k with
    | some v => rw [hyz v h]
    | none =>
      cases h' : z.out.get? k with
      | none => rfl
      | some v => rw [hzy v h'] at h; cases h
  cases y
  cases z
  simp only at e1 e2 e3
  rw [e1, e2, e3]

/-- A program that has a correction has no name without one. -/
theorem correctable {env : Env} {th : Thresholds} {specs : List Spec} {names : List Str} {x y : Fixed} {e : Err}
    (hy : Corrected env th specs names x y) (he : Uncorrectable env th specs names x e) : False := by
  obtain ⟨⟨y1, y2⟩, _, g, y5, y6, y7⟩ := hy
  have hlen : x.lvars.length = y.lvars.length := by
    have := congrArg List.length y1
    simpa [Dict.keys] using this.symm
  have hns : ∀ l ∈ x.lvars.map Prod.snd, ∀ m f, l.ns = some (m, f) → ∃ m' f', NsFix env th specs names m f m' f' := by
    intro l hl m f hl'
    obtain ⟨⟨n, l'⟩, h1, rfl⟩ := List.mem_map.1 hl
    obtain ⟨i, hi, h2⟩ := List.mem_iff_getElem.1 h1
    rcases y2 i hi (by omega) with ⟨h3, _⟩ | ⟨m2, f2, m', f', h3, h4, _⟩
    · rw [h2] at h3; simp only at h3 hl'; rw [h3] at hl'; cases hl'
    · rw [h2] at h3
      simp only at h3 hl'
      rw [h3] at hl'
      cases hl'
      exact ⟨m', f', h4⟩
  rcases he with ⟨l, hl, m, f, ms, h1, h2, h3⟩ | ⟨l, hl, m, f, m', fs, h1, h2, h3, h4⟩ | ⟨k, hk, h1⟩ |
    ⟨pre, k, k', ns, post, h1, h2, h3, n, hn, h4⟩
  · obtain ⟨m', f', h4, _⟩ := hns l hl m f h1
    rw [(corrects_iff env th.model ms m m').2 ((corrects_congr env th.model h2 m m').2 h4)] at h3
    cases h3
  · obtain ⟨m2, f', k1, fs', k2, k3⟩ := hns l hl m f h1
    have e := corrects_unique h2 k1
    subst e
    have e := modelFields_unique h3 k2
    subst e
    rw [(corrects_iff ..).2 k3] at h4
    cases h4
  · rw [(corrects_iff ..).2 (y5 k hk)] at h1
    cases h1
  · have mem : ∀ u ∈ (k, OutVal.refs ns) :: post, u.1 ∈ x.out.keys :=
      fun u hu => List.mem_map.2 ⟨u, by rw [h1]; exact List.mem_append_right _ hu, rfl⟩
    have hgk : g k = k' := corrects_unique (y5 k (mem _ (List.mem_cons_self ..))) h2
    have hkk : k' ∈ y.out.keys := by
      rw [y6, List.mem_eraseDups]
      exact List.mem_map.2 ⟨k, mem _ (List.mem_cons_self ..), hgk⟩
    obtain ⟨v', hv'⟩ := Option.isSome_iff_exists.1 ((Dict.get?_isSome_iff _ _).2 hkk)
    obtain ⟨pre2, k2, v, post2, a, b, c, d⟩ := (y7 k' v').1 hv'
    have hlast : (k2, v) = (k, OutVal.refs ns) := by
      rw [h1] at a
      rcases List.append_eq_append_iff.1 a with ⟨w, e1, e2⟩ | ⟨w, e1, e2⟩
      · cases w with
        | nil => simp only [List.nil_append, List.cons.injEq] at e2; exact e2.1.symm
        | cons p w =>
          simp only [List.cons_append, List.cons.injEq] at e2
          have h5 : (k2, v) ∈ post := by rw [e2.2]; simp
          have := y5 k2 (mem (k2, v) (by simp [h5]))
          rw [b] at this
          exact absurd this (h3 _ h5)
      · cases w with
        | nil => simp only [List.nil_append, List.cons.injEq] at e2; exact e2.1
        | cons p w =>
          simp only [List.cons_append, List.cons.injEq] at e2
          have h5 : (k, OutVal.refs ns) ∈ post2 := by rw [e2.2]; simp
          exact absurd hgk (c _ h5)
    cases hlast
    rcases d with ⟨ns', h, d1, d2, d3⟩ | ⟨d1, _⟩
    · cases d1
      have := d3 n hn
      rw [(corrects_iff env th.lvar (x.lvars.keys ++ x.lacts.keys) n (h n)).2
        ((corrects_congr env th.lvar (fun w => by rw [List.mem_append]) n (h n)).2 this)] at h4
      cases h4
    · exact absurd rfl (d1 ns)

/-- **C215**, exactly: it returns what the strict resolver returns for the correction, which is unique, if there is one. -/
theorem C215_exact (env : Env) (ext : Ext ν κ μ) (th : Thresholds) (hth : th.main < 1) (specs : List Spec) (names : List Str)
    (x : Fixed) :
    (∀ y z, Corrected env th specs names x y → Corrected env th specs names x z → y = z) ∧
    (∀ o, fuzzyCore env ext th specs names x = .ok o ↔
      ∃ y, Corrected env th specs names x y ∧ Resolver.resolve ext y.out y.lvars y.lacts specs = .ok o) ∧
    ((∃ y, Corrected env th specs names x y) ↔ ∀ e, ¬ Uncorrectable env th specs names x e) := by
  refine ⟨fun y z hy hz => corrected_unique hy hz, fun o => ⟨C215_corrected env ext th hth specs names x o, ?_⟩, ?_, ?_⟩
  · rintro ⟨y, hy, ho⟩
    cases h : fuzzyCore env ext th specs names x with
    | ok o' =>
      obtain ⟨z, hz, ho'⟩ := C215_corrected env ext th hth specs names x o' h
      have e := corrected_unique hy hz
      subst e
      rw [ho] at ho'
      cases ho'
      rfl
    | error e =>
      rcases C215_errors env ext th hth specs names x e h with h1 | ⟨z, r, hz, hr, _⟩
      · exact (correctable hy h1).elim
      · have e := corrected_unique hy hz
        subst e
        rw [ho] at hr
        cases hr
  · rintro ⟨y, hy⟩ e he
    exact correctable hy he
  · intro h
    cases hc : correctAll env th names (specMap env.opName specs) x.out x.lvars x.lacts with
    | ok y => exact ⟨y, correctAll_corrected env th specs names x y hc⟩
    | error e => exact absurd (correctAll_error env th specs names x e hc) (h e)

/-! ## C112, exactly -/

/-- **C112**, exactly: in strict mode a program is accepted if and only if every model and field of a declaration with a namespace and
every name of the OUT block is known and the strict resolver accepts the program as written, and the result is then the resolver's;
a lact with a model but no field is refused unless the empty name is a field. -/
theorem C112_exact (env : Env) (ext : Ext ν κ μ) (th : Thresholds) (hth : 1 ≤ th.main) (specs : List Spec) (names : List Str)
    (x : Fixed) (o : Output ν κ μ) :
    fuzzyCore env ext th specs names x = .ok o ↔
    (∀ n l m f, (n, l) ∈ x.lvars → l.ns = some (m, f) → ∃ fs, ModelFields env specs names m fs ∧ f ∈ fs) ∧
    (∀ n l m, (n, l) ∈ x.lacts → l.model = some m → m ≠ [] → ∃ fs, ModelFields env specs names m fs ∧ l.field.getD [] ∈ fs) ∧
    (∀ k ∈ x.out.keys, k ∈ names) ∧ Resolver.resolve ext x.out x.lvars x.lacts specs = .ok o := by
  have hns : ∀ m f, strictNs env names (specMap env.opName specs) m f = true ↔ ∃ fs, ModelFields env specs names m fs ∧ f ∈ fs := by
    intro m f
    simp only [fields_iff]
    unfold strictNs
    split
    · next h =>
      refine ⟨fun h => (by cases h), ?_⟩
      rintro ⟨fs, ⟨e, h1, _⟩, _⟩
      rw [h] at h1; cases h1
    · next e h =>
      rw [decide_eq_true_iff]
      constructor
      · intro hf; exact ⟨_, ⟨e, h, rfl⟩, hf⟩
      · rintro ⟨fs, ⟨e', h1, rfl⟩, hf⟩
        rw [h] at h1; cases h1; exact hf
  have hlv : ∀ l, strictLvar env names (specMap env.opName specs) l = true ↔
      ∀ m f, l.ns = some (m, f) → ∃ fs, ModelFields env specs names m fs ∧ f ∈ fs := by
    intro l
    unfold strictLvar
    split
    · next h => exact ⟨fun _ m f h' => (by rw [h] at h'; cases h'), fun _ => rfl⟩
    · next m f h =>
      rw [hns]
      exact ⟨fun h1 m' f' h' => (by rw [h] at h'; cases h'; exact h1), fun h1 => h1 m f h⟩
  have hla : ∀ l : LactMeta, strictLact env names (specMap env.opName specs) l = true ↔
      ∀ m, l.model = some m → m ≠ [] → ∃ fs, ModelFields env specs names m fs ∧ l.field.getD [] ∈ fs := by
    intro l
    unfold strictLact
    split
    · next h => exact ⟨fun _ m h' => (by rw [h] at h'; cases h'), fun _ => rfl⟩
    · next h => exact ⟨fun _ m h' hne => (by rw [h] at h'; cases h'; exact absurd rfl hne), fun _ => rfl⟩
    · next m hne h =>
      rw [hns]
      refine ⟨fun h1 m' h' _ => (by rw [h] at h'; cases h'; exact h1), fun h1 => h1 m h ?_⟩
      intro e
      exact hne e
  have hok : strictOk env names (specMap env.opName specs) x.out x.lvars x.lacts = true ↔
      (∀ n l m f, (n, l) ∈ x.lvars → l.ns = some (m, f) → ∃ fs, ModelFields env specs names m fs ∧ f ∈ fs) ∧
      (∀ n l m, (n, l) ∈ x.lacts → l.model = some m → m ≠ [] → ∃ fs, ModelFields env specs names m fs ∧ l.field.getD [] ∈ fs) ∧
      (∀ k ∈ x.out.keys, k ∈ names) := by
    unfold strictOk
    rw [Bool.and_eq_true, Bool.and_eq_true, List.all_eq_true, List.all_eq_true, List.all_eq_true, and_assoc]
    refine and_congr ?_ (and_congr ?_ ?_)
    · exact ⟨fun h n l m f hl hm => (hlv l).1 (h (n, l) hl) m f hm, fun h nl hl => (hlv nl.2).2 (fun m f hm => h nl.1 nl.2 m f hl hm)⟩
    · exact ⟨fun h n l m hl hm => (hla l).1 (h (n, l) hl) m hm, fun h nl hl => (hla nl.2).2 (fun m hm => h nl.1 nl.2 m hl hm)⟩
    · simp only [decide_eq_true_iff]
  have hfc : fuzzyCore env ext th specs names x =
      if strictOk env names (specMap env.opName specs) x.out x.lvars x.lacts then runStrict ext specs x else .error .missing := by
    unfold fuzzyCore
    rw [if_pos hth]
  rw [hfc]
  constructor
  · intro h
    split at h
    · next hs =>
      obtain ⟨h1, h2, h3⟩ := hok.1 hs
      exact ⟨h1, h2, h3, runStrict_ok h⟩
    · cases h
  · rintro ⟨h1, h2, h3, h4⟩
    rw [if_pos (hok.2 ⟨h1, h2, h3⟩)]
    unfold runStrict
    rw [h4]

/-! ## C216 -/

/-- **C216**.  Without a threshold of its own for model names, a model name is only ever replaced by one whose (case-insensitive)
similarity is at least 0.9, however low the global threshold is. -/
theorem C216_models (env : Env) (t : Rat) (field lvar spec : Option Rat) (specs : List Spec) (names : List Str) (x y : Fixed)
    (h : Corrected env (mkThresholds t field lvar none spec) specs names x y) (i : Nat) (h1 : i < x.lvars.length) (h2 : i < y.lvars.length)
    (m f m' f' : Str) (hm : x.lvars[i].2.ns = some (m, f)) (hm' : y.lvars[i].2.ns = some (m', f')) (hne : m' ≠ m) :
    9 / 10 ≤ env.score (env.lower m) (env.lower m') ∧ t ≤ env.score (env.lower m) (env.lower m') := by
  have := h.lvars.2 i h1 h2
  rcases this with ⟨h3, h4⟩ | ⟨a, b, a', b', h3, ⟨h4, _⟩, h5⟩
  · rw [h3] at hm; cases hm
  · rw [h3] at hm
    cases hm
    rw [h5] at hm'
    cases hm'
    rcases h4 with ⟨_, h4⟩ | ⟨_, _, _, _, h4, _⟩
    · exact absurd h4 hne
    · have h4 : max t (9 / 10) ≤ env.score (env.lower m) (env.lower m') := h4
      constructor <;> grind

/-- The other names: without thresholds of their own, fields, specs and references use the global one. -/
theorem C216_others (env : Env) (t : Rat) (model : Option Rat) (specs : List Spec) (names : List Str) (x y : Fixed)
    (h : Corrected env (mkThresholds t none none model none) specs names x y) :
    (∀ i (h1 : i < x.lvars.length) (h2 : i < y.lvars.length) m f m' f', x.lvars[i].2.ns = some (m, f) → y.lvars[i].2.ns = some (m', f') →
      f' ≠ f → t ≤ env.score (env.lower f) (env.lower f')) ∧
    (∀ k ∈ x.out.keys, k ∈ names ∨ ∃ k' ∈ y.out.keys, t ≤ env.score (env.lower k) (env.lower k')) := by
  constructor
  · intro i h1 h2 m f m' f' hm hm' hne
    rcases h.lvars.2 i h1 h2 with ⟨h3, h4⟩ | ⟨a, b, a', b', h3, ⟨_, fs, _, h4⟩, h5⟩
    · rw [h3] at hm; cases hm
    · rw [h3] at hm
      cases hm
      rw [h5] at hm'
      cases hm'
      rcases h4 with ⟨_, h4⟩ | ⟨_, _, _, _, h4, _⟩
      · exact absurd h4 hne
      · exact h4
  · intro k hk
    obtain ⟨g, g1, g2, _⟩ := h.out
    rcases g1 k hk with ⟨h1, _⟩ | ⟨_, _, _, _, h4, _⟩
    · exact Or.inl h1
    · refine Or.inr ⟨g k, ?_, h4⟩
      rw [g2, List.mem_eraseDups]
      exact List.mem_map.2 ⟨k, hk, rfl⟩

/-! ## Non-vacuity -/

/-- A report with fields `title` and `score`, declared with misspelt names and referred to by a misspelt one; one lact shares the
misspelt model. -/
def reportSpec : Spec := ⟨some "report".toList, .model "Report".toList, true, 0⟩

def misspelt : Fixed :=
  ⟨[("reprt".toList, .refs ["a".toList, "bb".toList])],
   [("a".toList, ⟨some ("Reporrt".toList, "titl".toList), "x".toList⟩)],
   [("bb".toList, ⟨some "Reporrt".toList, some "score".toList, "f".toList⟩)]⟩

/-- The names are corrected: the result is that of the program with the right names. -/
example : fuzzyCore (jwEnv [reportSpec] ["title".toList, "score".toList]) Resolver.demoExt (mkThresholds (85 / 100) none none none none)
      [reportSpec] ["report".toList] misspelt =
    runStrict Resolver.demoExt [reportSpec]
      ⟨[("report".toList, .refs ["a".toList, "bb".toList])],
       [("a".toList, ⟨some ("Report".toList, "title".toList), "x".toList⟩)],
       [("bb".toList, ⟨some "Report".toList, some "score".toList, "f".toList⟩)]⟩ := by decide +kernel

example : (fuzzyCore (jwEnv [reportSpec] ["title".toList, "score".toList]) Resolver.demoExt (mkThresholds (85 / 100) none none none none)
      [reportSpec] ["report".toList] misspelt).isOk = true := by decide +kernel

/-- With a low global threshold a distant model name is still refused, a distant field name is not. -/
example : (correctName id jw (mkThresholds (1 / 2) none none none none).model "Rexxx".toList ["Report".toList]).isOk = false ∧
    (correctName id jw (mkThresholds (1 / 2) none none none none).field "Rexxx".toList ["Report".toList]).isOk = true := by decide +kernel

end Verif.Fuzzy
