import Verif.Props.HashModel

/-!
# Exactly when `to_json` is deterministic (C167)
-/

set_option linter.unusedSectionVars false
set_option linter.unusedSimpArgs false
set_option linter.unusedVariables false

namespace Verif.HashModel

open Verif.HashDict

variable {α β σ γ : Type} [DecidableEq α]

/-- No set in the value has two elements that are written differently. -/
def Uniform (A : Atoms α σ γ) : Data α → Prop
  | .atom _ => True
  | .coll .set s => ∀ a ∈ elems s, ∀ b ∈ elems s, A.json a = A.json b
  | .coll .frozenset s => ∀ a ∈ elems s, ∀ b ∈ elems s, A.json a = A.json b
  | .coll _ s => Uniform A s
  | .nil => True
  | .lcons h t => Uniform A h ∧ Uniform A t
  | .dcons _ v t => Uniform A v ∧ Uniform A t
  | .scons _ t => Uniform A t

theorem uniform_perm (A : Atoms α σ γ) {l l' : List α} (h : l.Perm l') :
    (∀ a ∈ l, ∀ b ∈ l, A.json a = A.json b) ↔ ∀ a ∈ l', ∀ b ∈ l', A.json a = A.json b :=
  ⟨fun k a ha b hb => k a (h.mem_iff.2 ha) b (h.mem_iff.2 hb), fun k a ha b hb => k a (h.mem_iff.1 ha) b (h.mem_iff.1 hb)⟩

theorem uniform_equal (A : Atoms α σ γ) {x y : Data α} {ae ke : α → α → Prop} (h : Equal ae ke x y) : Uniform A x ↔ Uniform A y := by
  induction h with
  | refl x => rfl
  | symm _ ih => exact ih.symm
  | trans _ _ ih1 ih2 => exact ih1.trans ih2
  | atom _ => simp [Uniform]
  | @coll c s t h ih =>
    have hp := uniform_perm A (elems_equal h)
    cases c <;> simp only [Uniform] <;> first | exact ih | exact hp
  | lcons _ _ ih1 ih2 => simp [Uniform, ih1, ih2]
  | dcons _ _ _ ih1 ih2 => simp [Uniform, ih1, ih2]
  | dswap _ => simp [Uniform, and_left_comm]
  | scons _ ih => simp [Uniform, ih]
  | sswap => simp [Uniform]

theorem atomsJson_congr (A : Atoms α σ γ) : ∀ {l l' : List α}, l.map A.json = l'.map A.json → atomsJson A l = atomsJson A l'
  | [], [], _ => rfl
  | [], _ :: _, h => by simp at h
  | _ :: _, [], h => by simp at h
  | a :: l, b :: l', h => by
    simp only [List.map_cons, List.cons.injEq] at h
    simp only [atomsJson, h.1, atomsJson_congr A h.2]

theorem atomsJson_uniform (A : Atoms α σ γ) {l l' : List α} (hp : l.Perm l') (h : ∀ a ∈ l, ∀ b ∈ l, A.json a = A.json b) :
    atomsJson A l = atomsJson A l' := by
  apply atomsJson_congr
  cases l with
  | nil => rw [hp.nil_eq]
  | cons a l =>
    have h1 : (a :: l).map A.json = List.replicate (a :: l).length (A.json a) :=
      List.eq_replicate_iff.2 ⟨by simp, fun b hb => by obtain ⟨c, hc, rfl⟩ := List.mem_map.1 hb; exact h c hc a (by simp)⟩
    have h2 : l'.map A.json = List.replicate l'.length (A.json a) :=
      List.eq_replicate_iff.2 ⟨by simp, fun b hb => by
        obtain ⟨c, hc, rfl⟩ := List.mem_map.1 hb; exact h c (hp.mem_iff.2 hc) a (by simp)⟩
    rw [h1, h2, hp.length_eq]

theorem toJson_swap (A : Atoms α σ γ) (le : σ → σ → Bool) (ho : IsOrder le) (hinj : ∀ a b s, A.key a = some s → A.key b = some s → a = b)
    {k k' : α} {v v' t : Data α} (hne : k ≠ k') : toJson A le (.dcons k v (.dcons k' v' t)) = toJson A le (.dcons k' v' (.dcons k v t)) := by
  simp only [toJson]
  cases hk1 : A.key k with
  | none => cases A.key k' <;> cases toJson A le v' <;> rfl
  | some s =>
    cases hk2 : A.key k' with
    | none => cases toJson A le v <;> rfl
    | some s' =>
      cases toJson A le v <;> cases toJson A le v' <;> cases toJson A le t <;> try rfl
      simp only [Option.bind_some, Option.map_some, Option.some.injEq]
      refine insertKey_comm le ho ?_ _ _ _
      rintro rfl
      exact hne (hinj _ _ _ hk1 hk2)

theorem toJson_uniform (A : Atoms α σ γ) (le : σ → σ → Bool) (ho : IsOrder le) (hinj : ∀ a b s, A.key a = some s → A.key b = some s → a = b)
    {x y : Data α} {ke : α → α → Prop} (hk : ∀ a b, ke a b → a = b) (h : Equal (· = ·) ke x y) : Uniform A x → toJson A le x = toJson A le y := by
  induction h with
  | refl x => intro _; rfl
  | symm h ih => intro hn; exact (ih ((uniform_equal A h).2 hn)).symm
  | trans h1 h2 ih1 ih2 => intro hn; rw [ih1 hn, ih2 ((uniform_equal A h1).1 hn)]
  | atom h => intro _; rw [h]
  | @coll c s t h ih =>
    intro hn
    cases c <;> simp only [Uniform] at hn <;> simp only [toJson] <;> first | rw [ih hn] | rw [atomsJson_uniform A (elems_equal h) hn]
  | lcons _ _ ih1 ih2 => intro hn; simp only [toJson, ih1 hn.1, ih2 hn.2]
  | dcons hke _ _ ih1 ih2 => intro hn; simp only [toJson, ih1 hn.1, ih2 hn.2, hk _ _ hke]
  | @dswap k k' v v' t hne =>
    intro _
    exact toJson_swap A le ho hinj hne
  | scons _ ih => intro hn; simp only [toJson, ih hn]
  | sswap => intro _; rfl

/-! ## A set with two different elements has two texts -/

theorem insertKey_inj_value (le : σ → σ → Bool) (ho : IsOrder le) (k : σ) {v v' : Rep γ σ} : ∀ {t : Rep γ σ},
    insertKey le k v t = insertKey le k v' t → v = v' := by
  intro t
  induction t with
  | kcons k' r t _ ih =>
    intro h
    simp only [insertKey] at h
    by_cases hle : le k k' = true
    · rw [if_pos hle, if_pos hle] at h
      injection h
    · rw [if_neg hle, if_neg hle] at h
      injection h with _ _ h
      exact ih h
  | _ => intro h; simp only [insertKey] at h; injection h

theorem insertKey_inj_rest (le : σ → σ → Bool) (ho : IsOrder le) (k : σ) (v : Rep γ σ) : ∀ {t t' : Rep γ σ},
    insertKey le k v t = insertKey le k v t' → t = t' := by
  have hr : le k k = true := (ho.total k k).elim id id
  intro t
  induction t with
  | kcons k' r t _ ih =>
    intro t' h
    cases t' with
    | kcons k2 r2 t2 =>
      simp only [insertKey] at h
      by_cases h1 : le k k' = true <;> by_cases h2 : le k k2 = true
      · rw [if_pos h1, if_pos h2] at h
        injection h
      · rw [if_pos h1, if_neg h2] at h
        injection h with h3 _ _
        rw [← h3] at h2
        exact absurd hr h2
      · rw [if_neg h1, if_pos h2] at h
        injection h with h3 _ _
        rw [h3] at h1
        exact absurd hr h1
      · rw [if_neg h1, if_neg h2] at h
        injection h with h3 h4 h5
        rw [h3, h4, ih h5]
    | _ =>
      simp only [insertKey] at h
      by_cases h1 : le k k' = true
      · rw [if_pos h1] at h
        injection h
      · rw [if_neg h1] at h
        injection h with h3 _ _
        rw [h3] at h1
        exact absurd hr h1
  | _ =>
    intro t' h
    cases t' with
    | kcons k2 r2 t2 =>
      simp only [insertKey] at h
      by_cases h1 : le k k2 = true
      · rw [if_pos h1] at h
        injection h
      · rw [if_neg h1] at h
        injection h with h3 _ _
        rw [← h3] at h1
        exact absurd hr h1
    | _ => simp only [insertKey] at h; first | rfl | injection h

theorem shake_set (A : Atoms α σ γ) : ∀ (s : Data α) (j : Rep γ σ), atomsJson A (elems s) = some j →
    ¬ (∀ a ∈ elems s, ∀ b ∈ elems s, A.json a = A.json b) → ∃ s', Equal (· = ·) (· = ·) s s' ∧ atomsJson A (elems s') ≠ some j := by
  intro s
  induction s with
  | scons a t ih =>
    intro j hj hn
    simp only [elems, atomsJson, Option.bind_eq_some_iff, Option.map_eq_some_iff] at hj
    obtain ⟨ja, h1, jt, h2, rfl⟩ := hj
    by_cases hu : ∀ a ∈ elems t, ∀ b ∈ elems t, A.json a = A.json b
    · cases t with
      | scons b t2 =>
        have hab : A.json a ≠ A.json b := by
          intro e
          apply hn
          have hall : ∀ c ∈ elems (.scons a (.scons b t2)), A.json c = A.json b := by
            intro c hc
            rcases List.mem_cons.1 hc with rfl | hc
            · exact e
            · exact hu c hc b (by simp [elems])
          intro c hc d hd
          rw [hall c hc, hall d hd]
        refine ⟨.scons b (.scons a t2), .sswap, ?_⟩
        intro h
        simp only [elems, atomsJson, Option.bind_eq_some_iff, Option.map_eq_some_iff] at h
        obtain ⟨jb, k1, jr, k2, k3⟩ := h
        injection k3 with k3 _
        injection k3 with k3
        apply hab
        rw [h1, k1, k3]
      | _ => exact absurd (fun c hc d hd => by simp [elems] at hc hd; rw [hc, hd]) hn
    · obtain ⟨t', e1, e2⟩ := ih jt h2 hu
      refine ⟨.scons a t', .scons e1, ?_⟩
      intro h
      simp only [elems, atomsJson, Option.bind_eq_some_iff, Option.map_eq_some_iff] at h
      obtain ⟨jb, k1, jr, k2, k3⟩ := h
      injection k3 with _ k3
      rw [k3] at k2
      exact e2 k2
  | _ => intro j _ hn; exact absurd (fun c hc => by simp [elems] at hc) hn

theorem map_ne_some {τ ρ : Type} {f : τ → ρ} (hf : ∀ a b, f a = f b → a = b) {o : Option τ} {j : τ} (h : o ≠ some j) : o.map f ≠ some (f j) := by
  cases o with
  | none => simp
  | some a => intro e; simp only [Option.map_some, Option.some.injEq] at e; exact h (by rw [hf _ _ e])

theorem shake (A : Atoms α σ γ) (le : σ → σ → Bool) (ho : IsOrder le) : ∀ (x : Data α) (j : Rep γ σ), toJson A le x = some j → ¬ Uniform A x →
    ∃ y, Equal (· = ·) (· = ·) x y ∧ toJson A le y ≠ some j := by
  have hnode : ∀ (m : Nat) (a b : Rep γ σ), Rep.node m a = Rep.node m b → a = b := fun m a b h => by injection h
  intro x
  induction x with
  | atom a => intro j _ hn; exact absurd trivial hn
  | nil => intro j _ hn; exact absurd trivial hn
  | coll c s ih =>
    intro j hj hn
    cases c <;> simp only [toJson, Option.map_eq_some_iff] at hj <;> obtain ⟨i, h1, rfl⟩ := hj <;> simp only [Uniform] at hn <;>
      first
      | (obtain ⟨s', e1, e2⟩ := ih i h1 hn
         exact ⟨.coll _ s', .coll e1, by simp only [toJson]; exact map_ne_some (hnode _) e2⟩)
      | (obtain ⟨s', e1, e2⟩ := shake_set A s i h1 hn
         exact ⟨.coll _ s', .coll e1, by simp only [toJson]; exact map_ne_some (hnode _) e2⟩)
  | lcons h t ih1 ih2 =>
    intro j hj hn
    simp only [toJson, Option.bind_eq_some_iff, Option.map_eq_some_iff] at hj
    obtain ⟨jh, h1, jt, h2, rfl⟩ := hj
    by_cases hu : Uniform A h
    · obtain ⟨t', e1, e2⟩ := ih2 jt h2 (fun k => hn ⟨hu, k⟩)
      refine ⟨.lcons h t', .lcons (.refl _) e1, ?_⟩
      intro k
      simp only [toJson, Option.bind_eq_some_iff, Option.map_eq_some_iff] at k
      obtain ⟨_, _, jr, k2, k3⟩ := k
      injection k3 with _ k3
      rw [k3] at k2
      exact e2 k2
    · obtain ⟨h', e1, e2⟩ := ih1 jh h1 hu
      refine ⟨.lcons h' t, .lcons e1 (.refl _), ?_⟩
      intro k
      simp only [toJson, Option.bind_eq_some_iff, Option.map_eq_some_iff] at k
      obtain ⟨jr, k2, _, _, k3⟩ := k
      injection k3 with k3 _
      rw [k3] at k2
      exact e2 k2
  | dcons k v t ih1 ih2 =>
    intro j hj hn
    simp only [toJson, Option.bind_eq_some_iff, Option.map_eq_some_iff] at hj
    obtain ⟨s, hk, jv, h1, jt, h2, rfl⟩ := hj
    by_cases hu : Uniform A v
    · obtain ⟨t', e1, e2⟩ := ih2 jt h2 (fun k => hn ⟨hu, k⟩)
      refine ⟨.dcons k v t', .dcons rfl (.refl _) e1, ?_⟩
      intro h
      simp only [toJson, Option.bind_eq_some_iff, Option.map_eq_some_iff, hk, h1, Option.some.injEq] at h
      obtain ⟨_, rfl, _, rfl, jr, k2, k3⟩ := h
      rw [insertKey_inj_rest le ho _ _ k3] at k2
      exact e2 k2
    · obtain ⟨v', e1, e2⟩ := ih1 jv h1 hu
      refine ⟨.dcons k v' t, .dcons rfl e1 (.refl _), ?_⟩
      intro h
      simp only [toJson, Option.bind_eq_some_iff, Option.map_eq_some_iff, hk, h2, Option.some.injEq] at h
      obtain ⟨_, rfl, jr, k2, _, rfl, k3⟩ := h
      rw [insertKey_inj_value le ho _ k3] at k2
      exact e2 k2
  | scons a t ih =>
    intro j hj hn
    obtain ⟨t', e1, e2⟩ := ih j hj hn
    exact ⟨.scons a t', .scons e1, e2⟩

/-! ## Models -/

theorem dumped_elems {isModel : α → Bool} {x y : Data α} (h : Dumped isModel x y) : elems x = elems y := by
  induction h with
  | scons _ _ ih => simp only [elems, ih]
  | _ => rfl

theorem dumped_json (A : Atoms α σ γ) (le : σ → σ → Bool) {x y : Data α} (h : Dumped A.isModel x y) : toJson A le x = toJson A le y := by
  induction h with
  | atom a => rfl
  | model _ ih => simp only [toJson, ih]
  | @coll c s t hc hd ih =>
    have := dumped_elems hd
    cases c <;> simp only [toJson, ih, this]
  | nil => rfl
  | lcons _ _ ih1 ih2 => simp only [toJson, ih1, ih2]
  | dcons _ _ ih1 ih2 => simp only [toJson, ih1, ih2]
  | scons _ _ ih => simp only [toJson, ih]

theorem dumped_isSent (A : Atoms α σ γ) {x y : Data α} (h : Dumped A.isModel x y) : isSent A x = isSent A y := by cases h <;> rfl

theorem dumped_dropSent (A : Atoms α σ γ) {x y : Data α} (h : Dumped A.isModel x y) : Dumped A.isModel (dropSent A x) (dropSent A y) := by
  induction h with
  | @dcons k v v' t t' h1 h2 ih1 ih2 =>
    simp only [dropSent, dumped_isSent A h1]
    cases isSent A v' with
    | true => exact ih2
    | false => exact .dcons h1 ih2
  | atom a => exact .atom a
  | model h _ => exact .model h
  | coll hc h _ => exact .coll hc h
  | nil => exact .nil
  | lcons h1 h2 _ _ => exact .lcons h1 h2
  | scons h1 h2 _ => exact .scons h1 h2

/-- The JSON of a model is that of its wanted fields that are no sentinels. -/
theorem modelJson_ok (A : Atoms α σ γ) (le : σ → σ → Bool) (sel : Select α) (x : Data α) (j : Rep γ σ) :
    modelJson A le sel x = .ok j ↔
      (dump A (select sel x)).isSome = true ∧ (toJson A le (dropSent A (select sel x))).map (.node 0) = some j := by
  unfold modelJson toDictPy
  cases hd : dump A (select sel x) with
  | none => simp
  | some d =>
    have h := dumped_json A le (dumped_dropSent A ((dump_iff A _ _).1 hd))
    simp only [toJson, h]
    cases toJson A le (dropSent A d) <;> simp

theorem has_kept (A : Atoms α σ γ) (sel : Select α) (k : α) (v : Data α) : ∀ (x : Data α), Has k v (dropSent A (select sel x)) →
    Has k v x ∧ sel.has k = true ∧ isSent A v = false := by
  intro x
  induction x with
  | dcons k' v' t _ ih =>
    intro h
    simp only [select] at h
    cases hs : sel.has k' with
    | false =>
      rw [hs] at h
      simp only [Bool.false_eq_true, if_false] at h
      obtain ⟨h1, h2, h3⟩ := ih h
      exact ⟨.tail h1, h2, h3⟩
    | true =>
      rw [hs] at h
      simp only [if_true, dropSent] at h
      cases hv : isSent A v' with
      | true =>
        rw [hv] at h
        simp only [if_true] at h
        obtain ⟨h1, h2, h3⟩ := ih h
        exact ⟨.tail h1, h2, h3⟩
      | false =>
        rw [hv] at h
        simp only [Bool.false_eq_true, if_false] at h
        cases h with
        | head => exact ⟨.head, hs, hv⟩
        | tail h =>
          obtain ⟨h1, h2, h3⟩ := ih h
          exact ⟨.tail h1, h2, h3⟩
  | _ => intro h; cases h

theorem uniform_kept (A : Atoms α σ γ) (sel : Select α) : ∀ (x : Data α), IsChain x →
    (∀ k v, Has k v (dropSent A (select sel x)) → Uniform A v) → Uniform A (dropSent A (select sel x)) := by
  intro x
  induction x with
  | dcons k' v' t _ ih =>
    intro hc h
    simp only [select] at h ⊢
    cases hs : sel.has k' with
    | false =>
      rw [hs] at h
      exact ih hc h
    | true =>
      rw [hs] at h
      simp only [if_true, dropSent] at h ⊢
      cases hv : isSent A v' with
      | true =>
        rw [hv] at h
        exact ih hc h
      | false =>
        rw [hv] at h
        simp only [Bool.false_eq_true, if_false] at h ⊢
        exact ⟨h k' v' .head, ih hc (fun k v hh => h k v (.tail hh))⟩
  | nil => intro _ _; trivial
  | _ => intro hc; exact absurd hc (by simp [IsChain])

theorem shake_kept (A : Atoms α σ γ) (le : σ → σ → Bool) (ho : IsOrder le) (sel : Select α) {k : α} {v : Data α} (hw : sel.has k = true)
    (hs : isSent A v = false) (hn : ¬ Uniform A v) {x : Data α} (h : Has k v x) : ∀ (j : Rep γ σ), toJson A le (dropSent A (select sel x)) = some j →
    ∃ y, Equal (· = ·) (· = ·) x y ∧ toJson A le (dropSent A (select sel y)) ≠ some j := by
  induction h with
  | @head t =>
    intro j hj
    simp only [select, hw, if_true, dropSent, hs, Bool.false_eq_true, if_false, toJson, Option.bind_eq_some_iff, Option.map_eq_some_iff] at hj
    obtain ⟨s, hk, jv, h1, jt, h2, rfl⟩ := hj
    obtain ⟨v', e1, e2⟩ := shake A le ho v jv h1 hn
    have hs' : isSent A v' = false := by rw [← isSent_equal A (fun _ _ e => by rw [e]) e1, hs]
    refine ⟨.dcons k v' t, .dcons rfl e1 (.refl _), ?_⟩
    intro h
    simp only [select, hw, if_true, dropSent, hs', Bool.false_eq_true, if_false, toJson, Option.bind_eq_some_iff, Option.map_eq_some_iff, hk, h2,
      Option.some.injEq] at h
    obtain ⟨_, rfl, jr, k2, _, rfl, k3⟩ := h
    rw [insertKey_inj_value le ho _ k3] at k2
    exact e2 k2
  | @tail k' v' t h ih =>
    intro j hj
    cases hw' : sel.has k' with
    | false =>
      simp only [select, hw', Bool.false_eq_true, if_false] at hj
      obtain ⟨y, e1, e2⟩ := ih j hj
      refine ⟨.dcons k' v' y, .dcons rfl (.refl _) e1, ?_⟩
      simp only [select, hw', Bool.false_eq_true, if_false]
      exact e2
    | true =>
      cases hs' : isSent A v' with
      | true =>
        simp only [select, hw', if_true, dropSent, hs'] at hj
        obtain ⟨y, e1, e2⟩ := ih j hj
        refine ⟨.dcons k' v' y, .dcons rfl (.refl _) e1, ?_⟩
        simp only [select, hw', if_true, dropSent, hs']
        exact e2
      | false =>
        simp only [select, hw', if_true, dropSent, hs', Bool.false_eq_true, if_false, toJson, Option.bind_eq_some_iff, Option.map_eq_some_iff] at hj
        obtain ⟨s, hk, jv, h1, jt, h2, rfl⟩ := hj
        obtain ⟨y, e1, e2⟩ := ih jt h2
        refine ⟨.dcons k' v' y, .dcons rfl (.refl _) e1, ?_⟩
        intro h
        simp only [select, hw', if_true, dropSent, hs', Bool.false_eq_true, if_false, toJson, Option.bind_eq_some_iff, Option.map_eq_some_iff, hk, h1,
          Option.some.injEq] at h
        obtain ⟨_, rfl, _, rfl, jr, k2, k3⟩ := h
        rw [insertKey_inj_rest le ho _ _ k3] at k2
        exact e2 k2

/-- C167 (partial, exact): if `to_json` gives a text, then every model with the same content gives the same text exactly if no set in a
field that is written has two elements that are written differently. -/
theorem C167_exact_partial (A : Atoms α σ γ) (le : σ → σ → Bool) (ho : IsOrder le)
    (hinj : ∀ a b s, A.key a = some s → A.key b = some s → a = b) (sel : Select α) (x : Data α) (hc : IsChain x) (j : Rep γ σ)
    (hj : modelJson A le sel x = .ok j) :
    (∀ y, Equal (· = ·) (· = ·) x y → modelJson A le sel y = .ok j) ↔
      ∀ k v, Has k v x → Wanted sel k → isSent A v = false → Uniform A v := by
  have hx := (modelJson_ok A le sel x j).1 hj
  constructor
  · intro hall k v hkv hw hs
    refine Classical.byContradiction fun hn => ?_
    obtain ⟨i, h1, h2⟩ := Option.map_eq_some_iff.1 hx.2
    obtain ⟨y, e1, e2⟩ := shake_kept A le ho sel ((has_iff sel k).2 hw) hs hn hkv i h1
    obtain ⟨i', k1, k2⟩ := Option.map_eq_some_iff.1 ((modelJson_ok A le sel y j).1 (hall y e1)).2
    rw [← h2] at k2
    injection k2 with _ k2
    rw [k2] at k1
    exact e2 k1
  · intro hall y hy
    rw [modelJson_ok]
    have hu : Uniform A (dropSent A (select sel x)) := uniform_kept A sel x hc (fun k v h => by
      obtain ⟨h1, h2, h3⟩ := has_kept A sel k v x h
      exact hall k v h1 ((has_iff sel k).1 h2) h3)
    have he := dropSent_equal A (fun _ _ e => by rw [e]) (select_equal sel (fun _ _ e => e) hy)
    rw [← toJson_uniform A le ho hinj (fun _ _ e => e) he hu]
    refine ⟨?_, hx.2⟩
    have hb := dump_equal A (select_equal sel (fun _ _ e => e) hy)
    cases hd : dump A (select sel y) with
    | some d => rfl
    | none =>
      obtain ⟨d, hd'⟩ := Option.isSome_iff_exists.1 hx.1
      rw [hd, hd'] at hb
      exact hb.elim

/-- Non-vacuity of C167: a model with a one-element set and a list has one text; with `{1, 2}` it does not. -/
example : modelJson demoAtoms natLe {} (.dcons (.str 1) (.coll .set (.scons (.num 1) .nil)) (.dcons (.str 2) (.coll .list (.lcons (.atom (.num 3)) .nil)) .nil)) =
      .ok (.node 0 (.kcons 1 (.node 1 (.cons (.leaf (.num 1)) .nil)) (.kcons 2 (.node 1 (.cons (.leaf (.num 3)) .nil)) .nil))) ∧
    Uniform demoAtoms (.coll .set (.scons (.num 1) .nil)) ∧ ¬ Uniform demoAtoms (.coll .set (.scons (.num 1) (.scons (.num 2) .nil))) :=
  ⟨by decide, by simp [Uniform, elems], fun h => absurd (h (.num 1) (by simp [elems]) (.num 2) (by simp [elems])) (by decide)⟩

/-! ## C170: equal hashes for equal models -/

/-- Python's `==` on field values at any depth: dict entries and set elements in any order, equal atoms interchangeable, and a set equal to
the frozenset with the same elements. -/
inductive PyEqual (atomEq : α → α → Prop) : Data α → Data α → Prop where
  | refl (x) : PyEqual atomEq x x
  | symm {x y} : PyEqual atomEq x y → PyEqual atomEq y x
  | trans {x y z} : PyEqual atomEq x y → PyEqual atomEq y z → PyEqual atomEq x z
  | atom {a b} : atomEq a b → PyEqual atomEq (.atom a) (.atom b)
  | coll {c s t} : PyEqual atomEq s t → PyEqual atomEq (.coll c s) (.coll c t)
  | frozen {s} : PyEqual atomEq (.coll .set s) (.coll .frozenset s)
  | lcons {h h' t t'} : PyEqual atomEq h h' → PyEqual atomEq t t' → PyEqual atomEq (.lcons h t) (.lcons h' t')
  | dcons {k v v' t t'} : PyEqual atomEq v v' → PyEqual atomEq t t' → PyEqual atomEq (.dcons k v t) (.dcons k v' t')
  | dswap {k k' v v' t} : k ≠ k' → PyEqual atomEq (.dcons k v (.dcons k' v' t)) (.dcons k' v' (.dcons k v t))
  | scons {a t t'} : PyEqual atomEq t t' → PyEqual atomEq (.scons a t) (.scons a t')
  | sswap {a b t} : PyEqual atomEq (.scons a (.scons b t)) (.scons b (.scons a t))

theorem noSets_pyEqual {ae : α → α → Prop} {x y : Data α} (h : PyEqual ae x y) : NoSets x ↔ NoSets y := by
  induction h with
  | refl x => rfl
  | symm _ ih => exact ih.symm
  | trans _ _ ih1 ih2 => exact ih1.trans ih2
  | atom _ => simp [NoSets]
  | @coll c s t _ ih => cases c <;> simp [NoSets, ih]
  | frozen => simp [NoSets]
  | lcons _ _ ih1 ih2 => simp [NoSets, ih1, ih2]
  | dcons _ _ ih1 ih2 => simp [NoSets, ih1, ih2]
  | dswap _ => simp [NoSets, and_left_comm]
  | scons _ ih => simp [NoSets, ih]
  | sswap => simp [NoSets]

theorem equal_of_pyEqual {ae : α → α → Prop} {x y : Data α} (h : PyEqual ae x y) : NoSets x → Equal ae (· = ·) x y := by
  induction h with
  | refl x => intro _; exact .refl x
  | symm h ih => intro hn; exact (ih ((noSets_pyEqual h).2 hn)).symm
  | trans h1 h2 ih1 ih2 => intro hn; exact (ih1 hn).trans (ih2 ((noSets_pyEqual h1).1 hn))
  | atom h => intro _; exact .atom h
  | @coll c s t _ ih => intro hn; cases c <;> simp only [NoSets] at hn <;> exact .coll (ih hn)
  | frozen => intro hn; exact absurd hn (by simp [NoSets])
  | lcons _ _ ih1 ih2 => intro hn; exact .lcons (ih1 hn.1) (ih2 hn.2)
  | dcons _ _ ih1 ih2 => intro hn; exact .dcons rfl (ih1 hn.1) (ih2 hn.2)
  | dswap h => intro _; exact .dswap h
  | scons _ ih => intro hn; exact .scons (ih hn)
  | sswap => intro _; exact .sswap

theorem isSent_pyEqual (A : Atoms α σ γ) {ae : α → α → Prop} (ha : ∀ a b, ae a b → A.sent a = A.sent b) {x y : Data α} (h : PyEqual ae x y) :
    isSent A x = isSent A y := by
  induction h with
  | symm _ ih => exact ih.symm
  | trans _ _ ih1 ih2 => exact ih1.trans ih2
  | atom h => exact ha _ _ h
  | _ => rfl

/-- A set anywhere in a value can be replaced by the equal frozenset (or the other way round), and what is hashed changes. -/
theorem thaw (O : Ops α β σ) (hs : IsOrder O.strLe) (ae : α → α → Prop) {isModel : α → Bool} {x d : Data α} (h : Dumped isModel x d) :
    ¬ NoSets x → ∃ y e, PyEqual ae x y ∧ Dumped isModel y e ∧ rep O e ≠ rep O d := by
  have hnode : ∀ {m : Nat} {a b : Rep β σ}, a ≠ b → Rep.node m a ≠ Rep.node m b := fun h e => h (by injection e)
  induction h with
  | atom a => intro hn; exact absurd trivial hn
  | nil => intro hn; exact absurd trivial hn
  | @model s t hd ih =>
    intro hn
    obtain ⟨y, e, h1, h2, h3⟩ := ih hn
    exact ⟨.coll .model y, .coll .dict e, .coll h1, .model h2, by simp only [rep]; exact hnode h3⟩
  | @coll c s t hc hd ih =>
    intro hn
    cases c with
    | set => exact ⟨.coll .frozenset s, .coll .frozenset t, .frozen, .coll (by simp) hd, by simp [rep]⟩
    | frozenset => exact ⟨.coll .set s, .coll .set t, .symm .frozen, .coll (by simp) hd, by simp [rep]⟩
    | model => exact absurd rfl hc
    | dict =>
      obtain ⟨y, e, h1, h2, h3⟩ := ih hn
      exact ⟨.coll .dict y, .coll .dict e, .coll h1, .coll hc h2, by simp only [rep]; exact hnode h3⟩
    | list =>
      obtain ⟨y, e, h1, h2, h3⟩ := ih hn
      exact ⟨.coll .list y, .coll .list e, .coll h1, .coll hc h2, by simp only [rep]; exact hnode h3⟩
    | tuple =>
      obtain ⟨y, e, h1, h2, h3⟩ := ih hn
      exact ⟨.coll .tuple y, .coll .tuple e, .coll h1, .coll hc h2, by simp only [rep]; exact hnode h3⟩
  | @lcons a a' t t' d1 d2 ih1 ih2 =>
    intro hn
    by_cases hu : NoSets a
    · obtain ⟨y, e, h1, h2, h3⟩ := ih2 (fun k => hn ⟨hu, k⟩)
      exact ⟨.lcons a y, .lcons a' e, .lcons (.refl _) h1, .lcons d1 h2, fun k => h3 (by simp only [rep] at k; injection k)⟩
    · obtain ⟨y, e, h1, h2, h3⟩ := ih1 hu
      exact ⟨.lcons y t, .lcons e t', .lcons h1 (.refl _), .lcons h2 d2, fun k => h3 (by simp only [rep] at k; injection k)⟩
  | @dcons k v v' t t' d1 d2 ih1 ih2 =>
    intro hn
    by_cases hu : NoSets v
    · obtain ⟨y, e, h1, h2, h3⟩ := ih2 (fun k => hn ⟨hu, k⟩)
      exact ⟨.dcons k v y, .dcons k v' e, .dcons (.refl _) h1, .dcons d1 h2,
        fun k => h3 (by simp only [rep] at k; exact insertKey_inj_rest O.strLe hs _ _ k)⟩
    · obtain ⟨y, e, h1, h2, h3⟩ := ih1 hu
      exact ⟨.dcons k y t, .dcons k e t', .dcons h1 (.refl _), .dcons h2 d2,
        fun k => h3 (by simp only [rep] at k; exact insertKey_inj_value O.strLe hs _ k)⟩
  | @scons a t t' hm hd ih =>
    intro hn
    obtain ⟨y, e, h1, h2, h3⟩ := ih hn
    exact ⟨.scons a y, .scons a e, .scons h1, .scons hm h2, h3⟩

theorem thaw_fields (A : Atoms α σ γ) (O : Ops α β σ) (hs : IsOrder O.strLe) (ae : α → α → Prop) (hsent : ∀ a b, ae a b → A.sent a = A.sent b) :
    ∀ {x d : Data α}, IsChain x → Dumped A.isModel x d →
    ¬ NoSets x → ∃ y e, PyEqual ae x y ∧ Dumped A.isModel y e ∧ rep O (dropSent A e) ≠ rep O (dropSent A d) := by
  intro x
  induction x with
  | dcons k v t _ ih =>
    intro d hc hd hn
    cases hd with
    | @dcons _ _ v' _ t' d1 d2 =>
      by_cases hu : NoSets v
      · obtain ⟨y, e, h1, h2, h3⟩ := ih hc d2 (fun k => hn ⟨hu, k⟩)
        refine ⟨.dcons k v y, .dcons k v' e, .dcons (.refl _) h1, .dcons d1 h2, ?_⟩
        simp only [dropSent]
        cases isSent A v' with
        | true => exact h3
        | false =>
          simp only [Bool.false_eq_true, if_false, rep]
          exact fun k => h3 (insertKey_inj_rest O.strLe hs _ _ k)
      · obtain ⟨y, e, h1, h2, h3⟩ := thaw O hs ae d1 hu
        have s1 : isSent A v = false := by
          cases v with
          | atom a => exact absurd trivial hu
          | _ => rfl
        have s2 : isSent A v' = false := by rw [← dumped_isSent A d1, s1]
        have s3 : isSent A e = false := by rw [← dumped_isSent A h2, ← isSent_pyEqual A hsent h1, s1]
        refine ⟨.dcons k y t, .dcons k e t', .dcons h1 (.refl _), .dcons h2 d2, ?_⟩
        simp only [dropSent, s2, s3, Bool.false_eq_true, if_false, rep]
        exact fun k => h3 (insertKey_inj_value O.strLe hs _ k)
  | nil => intro d _ _ hn; exact absurd trivial hn
  | _ => intro d hc; exact absurd hc (by simp [IsChain])

/-- C170 (partial, exact): for a hash without collisions, and a model without models in sets, every equal model has the same hash exactly if
no field of the model contains a set or frozenset. -/
theorem C170_exact_partial (A : Atoms α σ γ) (O : Ops α β σ) (hash : Rep β σ → Int) (hh : ∀ r r', hash r = hash r' → r = r') (atomEq : α → α → Prop)
    (hs : IsOrder O.strLe) (hle : IsOrder O.le) (hty : IsOrder O.typeLe) (hinj : ∀ k k', O.str k = O.str k' → k = k')
    (hatom : ∀ a b, atomEq a b → O.prim a = O.prim b) (hsent : ∀ a b, atomEq a b → A.sent a = A.sent b)
    (x d : Data α) (hc : IsChain x) (hd : Dumped A.isModel x d) :
    (∀ y, PyEqual atomEq x y → hashModel A O hash y = hashModel A O hash x) ↔ NoSets x := by
  have key : ∀ {y e : Data α}, Dumped A.isModel y e → hashModel A O hash y = .ok (hash (rep O (.coll .dict (dropSent A e)))) := by
    intro y e h
    unfold hashModel toDictPy
    rw [select_all, (dump_iff A y e).2 h]
    rfl
  constructor
  · intro hall
    refine Classical.byContradiction fun hn => ?_
    obtain ⟨y, e, h1, h2, h3⟩ := thaw_fields A O hs atomEq hsent hc hd hn
    have := hall y h1
    rw [key h2, key hd] at this
    have := hh _ _ (Except.ok.inj this)
    simp only [rep] at this
    injection this with _ this
    exact h3 this
  · intro hn y hy
    exact ((C170_hash_partial A O hash atomEq hs hle hty hinj hatom hsent).1 x y (equal_of_pyEqual hy hn)).symm

/-- Non-vacuity of C170: a model with a list meets the hypotheses and has no sets; one with a set in a dict has. -/
example : Dumped (α := Nat) (fun _ => false) (.dcons 1 (.coll .list (.lcons (.atom 2) .nil)) .nil) (.dcons 1 (.coll .list (.lcons (.atom 2) .nil)) .nil) ∧
    IsChain (α := Nat) (.dcons 1 (.coll .list (.lcons (.atom 2) .nil)) .nil) ∧ NoSets (α := Nat) (.dcons 1 (.coll .list (.lcons (.atom 2) .nil)) .nil) ∧
    ¬ NoSets (α := Nat) (.dcons 1 (.coll .dict (.dcons 2 (.coll .set (.scons 3 .nil)) .nil)) .nil) :=
  ⟨.dcons (.coll (by decide) (.lcons (.atom 2) .nil)) .nil, trivial, by simp [NoSets], by simp [NoSets]⟩

end Verif.HashModel
