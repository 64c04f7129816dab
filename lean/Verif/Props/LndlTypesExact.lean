import Verif.Props.LndlTypes

/-!
# Exactly which data `revalidate_with_action_results` validates (C55, C116)
-/

set_option linter.unusedSectionVars false
set_option linter.unusedSimpArgs false
set_option linter.unusedVariables false

namespace Verif.LndlTypes

open Verif.Parser (Str)

/-! ## Specification -/

/-- The items of `a` followed by those of `b`. -/
inductive Joined : Val → Val → Val → Prop where
  | nil (b) : Joined .nil b b
  | cons {k h t b d} : Joined t b d → Joined (.cons k h t) b (.cons k h d)

mutual

/-- `w` is `v` as plain data: models are dictionaries of their fields (without the excluded ones) and extra fields, an action call is the dictionary with its name. -/
inductive Plain (excluded : Nat → Str → Bool) : Val → Val → Prop where
  | atom (s) : Plain excluded (.atom s) (.atom s)
  | action (n) : Plain excluded (.action n) (.map (.cons ['n', 'a', 'm', 'e'] (.atom n) .nil))
  | model {c fs e a b d} : Kept excluded (excluded c) fs a → Kept excluded (fun _ => false) e b → Joined a b d → Plain excluded (.model c fs e) (.map d)
  | seq {l l'} : Kept excluded (fun _ => false) l l' → Plain excluded (.seq l) (.seq l')
  | map {l l'} : Kept excluded (fun _ => false) l l' → Plain excluded (.map l) (.map l')

/-- The items of `l` in order, as plain data, without those whose key is in `ex`. -/
inductive Kept (excluded : Nat → Str → Bool) : (Str → Bool) → Val → Val → Prop where
  | nil (ex) : Kept excluded ex .nil .nil
  | skip {ex k h t t'} : ex k = true → Kept excluded ex t t' → Kept excluded ex (.cons k h t) t'
  | keep {ex k h h' t t'} : ex k = false → Plain excluded h h' → Kept excluded ex t t' → Kept excluded ex (.cons k h t) (.cons k h' t')

end

/-- Well formed: `true` for a value, `false` for the items of a collection. -/
def Formed : Bool → Val → Prop
  | true, .atom _ => True
  | true, .action _ => True
  | true, .model _ f e => Formed false f ∧ Formed false e
  | true, .seq l => Formed false l
  | true, .map l => Formed false l
  | false, .nil => True
  | false, .cons _ h t => Formed true h ∧ Formed false t
  | _, _ => False

/-- What the data to validate has under a key: the result of an action, else the plain form of the (not excluded) field, else that of the extra field. -/
def Shown (excluded : Nat → Str → Bool) (results : Str → Option Val) (cls : Nat) (fields extra : Val) (k : Str) (w : Val) : Prop :=
  (∃ n, (k, Val.action n) ∈ items fields ∧ results n = some w) ∨
  (∃ v, (k, v) ∈ items fields ∧ (∀ n, v ≠ .action n) ∧ excluded cls k = false ∧ Plain excluded v w) ∨
  (∃ v, (k, v) ∈ items extra ∧ Plain excluded v w)

/-! ## Lemmas -/

/-- A chain of items. -/
def Spine : Val → Prop
  | .nil => True
  | .cons _ _ t => Spine t
  | _ => False

theorem spine_kept {excluded : Nat → Str → Bool} {ex : Str → Bool} : ∀ {v w : Val}, Kept excluded ex v w → Spine w := by
  intro v
  induction v with
  | nil => intro w h; cases h; trivial
  | cons k h t _ ih =>
    intro w hk
    cases hk with
    | skip _ hk => exact ih hk
    | keep _ _ hk => exact (ih hk : Spine _)
  | _ => intro w h; cases h

theorem joined_app : ∀ a b, Spine a → Joined a b (app a b) := by
  intro a
  induction a with
  | nil => intro b _; exact .nil b
  | cons k h t _ ih => intro b hf; exact .cons (ih b hf)
  | _ => intro b hf; exact hf.elim

theorem dump_plain (excluded : Nat → Str → Bool) : ∀ v, (Formed true v → ∀ ex, Plain excluded v (dump excluded ex v)) ∧
    (Formed false v → ∀ ex, Kept excluded ex v (dump excluded ex v)) := by
  intro v
  induction v with
  | atom s => exact ⟨fun _ _ => .atom s, fun h => h.elim⟩
  | action n => exact ⟨fun _ _ => .action n, fun h => h.elim⟩
  | model c fs e ih1 ih2 =>
    refine ⟨fun h ex => ?_, fun h => h.elim⟩
    have a := ih1.2 h.1 (excluded c)
    exact .model a (ih2.2 h.2 (fun _ => false)) (joined_app _ _ (spine_kept a))
  | seq l ih => exact ⟨fun h ex => .seq (ih.2 h _), fun h => h.elim⟩
  | map l ih => exact ⟨fun h ex => .map (ih.2 h _), fun h => h.elim⟩
  | nil => exact ⟨fun h => h.elim, fun _ ex => .nil ex⟩
  | cons k h t ih1 ih2 =>
    refine ⟨fun h => h.elim, fun hf ex => ?_⟩
    rw [dump]
    split
    · next he => exact .skip he (ih2.2 hf.2 ex)
    · next he => exact .keep (by simpa using he) (ih1.1 hf.1 _) (ih2.2 hf.2 ex)

theorem joined_unique {a b d d' : Val} (h : Joined a b d) (h' : Joined a b d') : d = d' := by
  induction h generalizing d' with
  | nil b => cases h'; rfl
  | cons _ ih => cases h' with | cons h' => rw [ih h']

mutual

theorem plain_unique (excluded : Nat → Str → Bool) : ∀ {v w w' : Val}, Plain excluded v w → Plain excluded v w' → w = w'
  | _, _, _, .atom s, .atom _ => rfl
  | _, _, _, .action n, .action _ => rfl
  | _, _, _, .model a b j, .model a' b' j' => by
    have h1 := kept_unique excluded a a'
    have h2 := kept_unique excluded b b'
    subst h1; subst h2
    rw [joined_unique j j']
  | _, _, _, .seq a, .seq a' => by rw [kept_unique excluded a a']
  | _, _, _, .map a, .map a' => by rw [kept_unique excluded a a']

theorem kept_unique (excluded : Nat → Str → Bool) : ∀ {ex : Str → Bool} {v w w' : Val}, Kept excluded ex v w → Kept excluded ex v w' → w = w'
  | _, _, _, _, .nil _, .nil _ => rfl
  | _, _, _, _, .skip _ a, .skip _ a' => kept_unique excluded a a'
  | _, _, _, _, .skip h _, .keep h' _ _ => by rw [h] at h'; cases h'
  | _, _, _, _, .keep h _ _, .skip h' _ => by rw [h] at h'; cases h'
  | _, _, _, _, .keep _ p a, .keep _ p' a' => by rw [plain_unique excluded p p', kept_unique excluded a a']

end

theorem getItem_mem (fs : Val) (hnd : ((items fs).map (·.1)).Nodup) (k : Str) (v : Val) : getItem k fs = some v ↔ (k, v) ∈ items fs := by
  induction fs with
  | cons k' h t _ ih =>
    rw [items, List.map_cons, List.nodup_cons] at hnd
    rw [getItem, items, List.mem_cons]
    by_cases e : k' = k
    · subst e
      simp only [if_true, Option.some.injEq, Prod.mk.injEq, true_and]
      constructor
      · intro h; exact .inl h.symm
      · rintro (h | h)
        · exact h.symm
        · exact absurd (List.mem_map.2 ⟨_, h, rfl⟩) hnd.1
    · rw [if_neg e, ih hnd.2]
      simp [Ne.symm e]
  | _ => simp [getItem, items]

theorem getItem_dump_all (excluded : Nat → Str → Bool) (ex : Str → Bool) (fs : Val) (k : Str) :
    getItem k (dump excluded ex fs) = if ex k then none else (getItem k fs).map (dump excluded (fun _ => false)) := by
  induction fs with
  | cons k' h t _ ih =>
    rw [dump]
    have iht := ih
    by_cases e : k' = k
    · subst e
      by_cases he : ex k' = true
      · rw [if_pos he, iht, if_pos he, if_pos he]
      · rw [if_neg he, getItem, if_pos rfl, if_neg he]; simp [getItem]
    · by_cases he : ex k' = true
      · rw [if_pos he, iht]; simp [getItem, e]
      · rw [if_neg he, getItem, if_neg e, iht]; simp [getItem, e]
  | _ => simp [dump, getItem]

theorem getItem_dump_mem (excluded : Nat → Str → Bool) (ex : Str → Bool) (fs : Val) (hnd : ((items fs).map (·.1)).Nodup) (hf : Formed false fs) (k : Str) (w : Val) :
    getItem k (dump excluded ex fs) = some w ↔ ex k = false ∧ ∃ v, (k, v) ∈ items fs ∧ Plain excluded v w := by
  have hform : ∀ fs, Formed false fs → ∀ v, (k, v) ∈ items fs → Formed true v := by
    intro fs
    induction fs with
    | cons k' h t _ ih =>
      intro hf v hv
      rw [items, List.mem_cons] at hv
      rcases hv with e | hv
      · cases e; exact hf.1
      · exact ih hf.2 v hv
    | _ => intro _ v hv; simp [items] at hv
  rw [getItem_dump_all]
  by_cases he : ex k = true
  · simp [he]
  · rw [if_neg he]
    simp only [Bool.not_eq_true] at he
    simp only [he, true_and]
    rw [Option.map_eq_some_iff]
    constructor
    · rintro ⟨v, hv, rfl⟩
      have hm := (getItem_mem fs hnd k v).1 hv
      exact ⟨v, hm, (dump_plain excluded v).1 (hform fs hf v hm) _⟩
    · rintro ⟨v, hm, hp⟩
      exact ⟨v, (getItem_mem fs hnd k v).2 hm, plain_unique excluded ((dump_plain excluded v).1 (hform fs hf v hm) _) hp⟩

theorem substTop_total (results : Str → Option Val) (fs kw : Val) :
    ((∃ k n, (k, Val.action n) ∈ items fs ∧ results n = none) → substTop results fs kw = .error ()) ∧
    ((∀ k n, (k, Val.action n) ∈ items fs → results n ≠ none) → ∃ kw', substTop results fs kw = .ok kw') := by
  induction fs generalizing kw with
  | cons k h t _ ih =>
    rw [substTop]
    cases ha : actionName h with
    | none =>
      have hna : ∀ n, h ≠ .action n := by rintro n rfl; simp [actionName] at ha
      refine ⟨?_, ?_⟩
      · rintro ⟨j, n, hm, hr⟩
        rw [items, List.mem_cons] at hm
        rcases hm with e | hm
        · cases e; exact absurd rfl (hna n)
        · exact (ih kw).1 ⟨j, n, hm, hr⟩
      · intro hall
        exact (ih kw).2 (fun j n hm => hall j n (by rw [items]; exact List.mem_cons_of_mem _ hm))
    | some a =>
      have : h = .action a := by cases h <;> simp_all [actionName]
      subst this
      simp only
      cases hr : results a with
      | none =>
        refine ⟨fun _ => rfl, ?_⟩
        intro hall
        exact absurd hr (hall k a (by rw [items]; simp))
      | some r =>
        refine ⟨?_, ?_⟩
        · rintro ⟨j, n, hm, hn⟩
          rw [items, List.mem_cons] at hm
          rcases hm with e | hm
          · cases e; rw [hr] at hn; cases hn
          · exact (ih _).1 ⟨j, n, hm, hn⟩
        · intro hall
          exact (ih _).2 (fun j n hm => hall j n (by rw [items]; exact List.mem_cons_of_mem _ hm))
  | _ => refine ⟨?_, fun _ => ⟨_, by rw [substTop]; simp⟩⟩; rintro ⟨k, n, hm, -⟩; simp [items] at hm

/-! ## C55, C116 -/

/-- C55, exact: revalidation fails when a field of the model itself holds an action without result. Otherwise it is validation of the data that have, under each key, the result of the field's action, else the plain
form of the field unless declared with `exclude`, else that of the extra field; and nothing else. Missing from the full claim: actions deeper inside (`C55_nested_violation`). -/
theorem C55_data_partial (excluded : Nat → Str → Bool) (validate : Nat → Val → Option Val) (results : Str → Option Val) (cls : Nat) (fields extra : Val)
    (hf : Formed false fields) (he : Formed false extra) (hnd : ((items fields ++ items extra).map (·.1)).Nodup) :
    ((∃ k n, (k, Val.action n) ∈ items fields ∧ results n = none) → revalidate excluded validate results cls fields extra = .error ()) ∧
    ((∀ k n, (k, Val.action n) ∈ items fields → results n ≠ none) →
      ∃ data, (∀ k w, getItem k data = some w ↔ Shown excluded results cls fields extra k w) ∧
        (∀ m, revalidate excluded validate results cls fields extra = .ok m ↔ validate cls data = some m) ∧
        (revalidate excluded validate results cls fields extra = .error () ↔ validate cls data = none)) := by
  rw [List.map_append] at hnd
  have hn1 := (List.nodup_append.1 hnd).1
  have hn2 := (List.nodup_append.1 hnd).2.1
  have hdis := (List.nodup_append.1 hnd).2.2
  obtain ⟨t1, t2⟩ := substTop_total results fields (dumpTop excluded cls fields extra)
  refine ⟨fun h => ?_, fun h => ?_⟩
  · unfold revalidate; rw [t1 h]
  · obtain ⟨kw, hkw⟩ := t2 h
    obtain ⟨h1, h2⟩ := substTop_spec results fields _ kw hn1 hkw
    refine ⟨kw, ?_, ?_, ?_⟩
    · intro k w
      by_cases hact : ∃ n, (k, Val.action n) ∈ items fields
      · obtain ⟨n, hn⟩ := hact
        obtain ⟨r, hr, hg⟩ := h1 k n hn
        rw [hg]
        have huniq : ∀ v, (k, v) ∈ items fields → v = .action n := by
          intro v hv
          have a := (getItem_mem fields hn1 k v).2 hv
          rw [(getItem_mem fields hn1 k _).2 hn] at a
          exact (Option.some.inj a).symm
        constructor
        · intro e; cases e; exact .inl ⟨n, hn, hr⟩
        · rintro (⟨n', hn', hr'⟩ | ⟨v, hv, hna, -⟩ | ⟨v, hv, -⟩)
          · have := huniq _ hn'; cases this; rw [hr] at hr'; exact hr'
          · exact absurd (huniq v hv) (hna n)
          · exact absurd rfl (hdis k (List.mem_map.2 ⟨_, hn, rfl⟩) k (List.mem_map.2 ⟨_, hv, rfl⟩))
      · have hact' : ∀ n, (k, Val.action n) ∉ items fields := fun n hn => hact ⟨n, hn⟩
        rw [h2 k hact']
        unfold dumpTop
        rw [getItem_app]
        have hF := getItem_dump_mem excluded (excluded cls) fields hn1 hf k
        have hE := getItem_dump_mem excluded (fun _ => false) extra hn2 he k
        cases hg : getItem k (dump excluded (excluded cls) fields) with
        | some u =>
          obtain ⟨hex, v, hv, hp⟩ := (hF u).1 hg
          simp only [Option.some_or, Option.some.injEq]
          constructor
          · rintro rfl
            exact .inr (.inl ⟨v, hv, fun n e => hact' n (e ▸ hv), hex, hp⟩)
          · rintro (⟨n', hn', -⟩ | ⟨v', hv', -, -, hp'⟩ | ⟨v', hv', -⟩)
            · exact absurd hn' (hact' n')
            · have a := (getItem_mem fields hn1 k v).2 hv
              rw [(getItem_mem fields hn1 k v').2 hv'] at a
              cases a; exact plain_unique excluded hp hp'
            · exact absurd rfl (hdis k (List.mem_map.2 ⟨_, hv, rfl⟩) k (List.mem_map.2 ⟨_, hv', rfl⟩))
        | none =>
          simp only [Option.none_or]
          rw [hE w]
          constructor
          · rintro ⟨-, v, hv, hp⟩; exact .inr (.inr ⟨v, hv, hp⟩)
          · rintro (⟨n', hn', -⟩ | ⟨v', hv', -, hex, hp'⟩ | ⟨v', hv', hp⟩)
            · exact absurd hn' (hact' n')
            · rw [(hF w).2 ⟨hex, v', hv', hp'⟩] at hg; cases hg
            · exact ⟨rfl, v', hv', hp⟩
    · intro m
      unfold revalidate
      rw [hkw]
      cases hv : validate cls kw <;> simp [hv]
    · unfold revalidate
      rw [hkw]
      cases hv : validate cls kw <;> simp [hv]

/-- Non-vacuity: an action at the top, a nested model with an excluded field and an extra field holding an action. -/
example : Formed false (.cons ['a'] (.action ['n']) (.cons ['b'] (.model 1 (.cons ['x'] (.atom ['v']) .nil) .nil) .nil)) ∧
    Shown (fun c _ => decide (c = 1)) (fun _ => some (.atom ['r'])) 0 (.cons ['a'] (.action ['n']) (.cons ['b'] (.model 1 (.cons ['x'] (.atom ['v']) .nil) .nil) .nil))
      (.cons ['e'] (.action ['m']) .nil) ['b'] (.map .nil) ∧
    Shown (fun c _ => decide (c = 1)) (fun _ => some (.atom ['r'])) 0 (.cons ['a'] (.action ['n']) .nil)
      (.cons ['e'] (.action ['m']) .nil) ['e'] (.map (.cons ['n', 'a', 'm', 'e'] (.atom ['m']) .nil)) :=
  ⟨⟨trivial, ⟨⟨trivial, trivial⟩, trivial⟩, trivial⟩,
    .inr (.inl ⟨_, .tail _ (.head _), (by intro n h; cases h), rfl, .model (.skip rfl (.nil _)) (.nil _) (.nil _)⟩),
    .inr (.inr ⟨_, .head _, .action _⟩)⟩

end Verif.LndlTypes
