import Verif.Model.HashModel
import Verif.Props.HashDict

/-!
# C166-C170: `HashableModel`
-/

set_option linter.unusedSectionVars false
set_option linter.unusedSimpArgs false
set_option linter.unusedVariables false

namespace Verif.HashModel

open Verif.HashDict

variable {α β σ γ : Type} [DecidableEq α]

/-! ## Specification -/

/-- The chain has the entry. -/
inductive Has (k : α) (v : Data α) : Data α → Prop where
  | head {t} : Has k v (.dcons k v t)
  | tail {k' v' t} : Has k v t → Has k v (.dcons k' v' t)

/-- The keys of a chain. -/
def keys : Data α → List α
  | .dcons k _ t => k :: keys t
  | _ => []

/-- A chain of dict entries. -/
def IsChain : Data α → Prop
  | .nil => True
  | .dcons _ _ t => IsChain t
  | _ => False

/-- `w` is `v` with the models in it turned into dicts. -/
inductive Dumped (isModel : α → Bool) : Data α → Data α → Prop where
  | atom (a) : Dumped isModel (.atom a) (.atom a)
  | model {s t} : Dumped isModel s t → Dumped isModel (.coll .model s) (.coll .dict t)
  | coll {c s t} : c ≠ .model → Dumped isModel s t → Dumped isModel (.coll c s) (.coll c t)
  | nil : Dumped isModel .nil .nil
  | lcons {h h' t t'} : Dumped isModel h h' → Dumped isModel t t' → Dumped isModel (.lcons h t) (.lcons h' t')
  | dcons {k v v' t t'} : Dumped isModel v v' → Dumped isModel t t' → Dumped isModel (.dcons k v t) (.dcons k v' t')
  | scons {a t t'} : isModel a = false → Dumped isModel t t' → Dumped isModel (.scons a t) (.scons a t')

/-- The caller asked for this field. -/
def Wanted (sel : Select α) (k : α) : Prop := (∀ l, sel.incl = some l → k ∈ l) ∧ k ∉ sel.excl

/-! ## Lemmas -/

theorem has_iff (sel : Select α) (k : α) : sel.has k = true ↔ Wanted sel k := by
  unfold Select.has Wanted
  cases sel.incl <;> simp

theorem dump_iff (A : Atoms α σ γ) : ∀ (v w : Data α), dump A v = some w ↔ Dumped A.isModel v w := by
  intro v
  induction v with
  | atom a =>
    intro w; simp only [dump, Option.some.injEq]
    constructor
    · rintro rfl; exact .atom a
    · intro h; cases h; rfl
  | coll c s ih =>
    intro w
    by_cases hc : c = .model
    · subst hc
      simp only [dump, Option.map_eq_some_iff]
      constructor
      · rintro ⟨t, ht, rfl⟩; exact .model ((ih t).1 ht)
      · intro h
        cases h with
        | model h => exact ⟨_, (ih _).2 h, rfl⟩
        | coll hc h => exact absurd rfl hc
    · have hd : dump A (.coll c s) = (dump A s).map (.coll c) := by
        cases c <;> first | rfl | exact absurd rfl hc
      rw [hd, Option.map_eq_some_iff]
      constructor
      · rintro ⟨t, ht, rfl⟩; exact .coll hc ((ih t).1 ht)
      · intro h
        cases h with
        | model h => exact absurd rfl hc
        | coll hc h => exact ⟨_, (ih _).2 h, rfl⟩
  | nil =>
    intro w; simp only [dump, Option.some.injEq]
    constructor
    · rintro rfl; exact .nil
    · intro h; cases h; rfl
  | lcons h t ih1 ih2 =>
    intro w; simp only [dump, Option.bind_eq_some_iff, Option.map_eq_some_iff]
    constructor
    · rintro ⟨a, ha, b, hb, rfl⟩; exact .lcons ((ih1 a).1 ha) ((ih2 b).1 hb)
    · intro h; cases h with | lcons h1 h2 => exact ⟨_, (ih1 _).2 h1, _, (ih2 _).2 h2, rfl⟩
  | dcons k v t ih1 ih2 =>
    intro w; simp only [dump, Option.bind_eq_some_iff, Option.map_eq_some_iff]
    constructor
    · rintro ⟨a, ha, b, hb, rfl⟩; exact .dcons ((ih1 a).1 ha) ((ih2 b).1 hb)
    · intro h; cases h with | dcons h1 h2 => exact ⟨_, (ih1 _).2 h1, _, (ih2 _).2 h2, rfl⟩
  | scons a t ih =>
    intro w; simp only [dump]
    cases hm : A.isModel a with
    | true =>
      simp only [if_true]
      constructor
      · intro h; cases h
      · intro h; cases h with | scons h1 h2 => rw [hm] at h1; cases h1
    | false =>
      simp only [Bool.false_eq_true, if_false, Option.map_eq_some_iff]
      constructor
      · rintro ⟨b, hb, rfl⟩; exact .scons hm ((ih b).1 hb)
      · intro h; cases h with | scons h1 h2 => exact ⟨_, (ih _).2 h2, rfl⟩

theorem has_select (sel : Select α) (k : α) (v : Data α) : ∀ x : Data α, Has k v (select sel x) ↔ Has k v x ∧ Wanted sel k := by
  intro x
  induction x with
  | dcons k' v' t ih1 ih =>
    simp only [select]
    by_cases hs : sel.has k' = true
    · rw [if_pos hs]
      constructor
      · intro h
        cases h with
        | head => exact ⟨.head, (has_iff _ _).1 hs⟩
        | tail h => exact ⟨.tail (ih.1 h).1, (ih.1 h).2⟩
      · rintro ⟨h, hw⟩
        cases h with
        | head => exact .head
        | tail h => exact .tail (ih.2 ⟨h, hw⟩)
    · rw [if_neg hs]
      constructor
      · intro h; exact ⟨.tail (ih.1 h).1, (ih.1 h).2⟩
      · rintro ⟨h, hw⟩
        cases h with
        | head => exact absurd ((has_iff _ _).2 hw) hs
        | tail h => exact ih.2 ⟨h, hw⟩
  | _ => simp only [select]; constructor <;> (intro h; first | (cases h; done) | (obtain ⟨h, _⟩ := h; cases h))

theorem has_dropSent (A : Atoms α σ γ) (k : α) (v : Data α) : ∀ x : Data α, Has k v (dropSent A x) ↔ Has k v x ∧ isSent A v = false := by
  intro x
  induction x with
  | dcons k' v' t ih1 ih =>
    simp only [dropSent]
    by_cases hs : isSent A v' = true
    · rw [if_pos hs]
      constructor
      · intro h; exact ⟨.tail (ih.1 h).1, (ih.1 h).2⟩
      · rintro ⟨h, hw⟩
        cases h with
        | head => rw [hw] at hs; cases hs
        | tail h => exact ih.2 ⟨h, hw⟩
    · rw [if_neg hs]
      constructor
      · intro h
        cases h with
        | head => exact ⟨.head, by simpa using hs⟩
        | tail h => exact ⟨.tail (ih.1 h).1, (ih.1 h).2⟩
      · rintro ⟨h, hw⟩
        cases h with
        | head => exact .head
        | tail h => exact .tail (ih.2 ⟨h, hw⟩)
  | _ => simp only [dropSent]; constructor <;> (intro h; first | (cases h; done) | (obtain ⟨h, _⟩ := h; cases h))

theorem has_dumped {isModel : α → Bool} {x y : Data α} (h : Dumped isModel x y) (k : α) (w : Data α) : Has k w y ↔ ∃ v, Has k v x ∧ Dumped isModel v w := by
  induction h with
  | @dcons k' v v' t t' h1 h2 ih1 ih2 =>
    constructor
    · intro hh
      cases hh with
      | head => exact ⟨v, .head, h1⟩
      | tail hh => obtain ⟨u, hu, hd⟩ := ih2.1 hh; exact ⟨u, .tail hu, hd⟩
    · rintro ⟨u, hu, hd⟩
      cases hu with
      | head =>
        have e : v' = w := by
          have a1 := (dump_iff (σ := Unit) (γ := Unit) ⟨fun _ => false, isModel, fun _ => none, fun _ => none⟩ _ _).2 h1
          have a2 := (dump_iff (σ := Unit) (γ := Unit) ⟨fun _ => false, isModel, fun _ => none, fun _ => none⟩ _ _).2 hd
          rw [a1] at a2; exact Option.some.inj a2
        rw [e]; exact .head
      | tail hu => exact .tail (ih2.2 ⟨u, hu, hd⟩)
  | _ => constructor <;> (first | (intro hh; cases hh; done) | (rintro ⟨u, hu, hd⟩; cases hu))

/-! ### C166 -/

/-- Atoms for the examples: sentinel, numbers, strings, and models (as set elements). -/
inductive At where
  | unset | num (n : Nat) | str (n : Nat) | model (n : Nat)
  deriving DecidableEq, Repr

def At.isSent : At → Bool
  | .unset => true
  | _ => false

def At.isModel : At → Bool
  | .model _ => true
  | _ => false

def At.key : At → Option Nat
  | .str n => some n
  | _ => none

def At.json : At → Option At
  | .num n => some (.num n)
  | .str n => some (.str n)
  | _ => none

def demoAtoms : Atoms At Nat At := ⟨At.isSent, At.isModel, At.key, At.json⟩

def demoLoads : Loads At Nat At := ⟨id, .str⟩

def natLe (a b : Nat) : Bool := decide (a ≤ b)

/-- C166: `to_dict(mode=..., include=..., exclude=...)` contains exactly the fields asked for. This fails in json mode: `exclude` (like `include`) is ignored. -/
theorem C166_violation :
    toDict demoAtoms demoLoads natLe .json { excl := [.str 1] } (.dcons (.str 1) (.atom (.num 7)) .nil) =
      .ok (.coll .dict (.dcons (.str 1) (.atom (.num 7)) .nil)) ∧ ¬ Wanted (α := At) { excl := [.str 1] } (.str 1) :=
  ⟨by decide, by simp [Wanted]⟩

/-- C166 (partial): missing: the json mode. In python mode the result contains exactly the fields asked for that hold no sentinel, with models in the values turned into dicts; in json mode without `include`/`exclude` the result is that of reading back `to_json()`. -/
theorem C166_select_partial (A : Atoms α σ γ) (L : Loads α σ γ) (le : σ → σ → Bool) (sel : Select α) (fields d : Data α)
    (h : toDict A L le .python sel fields = .ok d) :
    ∃ e, d = .coll .dict e ∧ ∀ k w, Has k w e ↔ Wanted sel k ∧ (∃ v, Has k v fields ∧ Dumped A.isModel v w) ∧ ∀ a, w = .atom a → A.sent a = false := by
  unfold toDict toDictPy at h
  cases hd : dump A (select sel fields) with
  | none => rw [hd] at h; cases h
  | some e =>
    rw [hd] at h
    simp only [Except.map, Except.ok.injEq] at h
    refine ⟨dropSent A e, h.symm, fun k w => ?_⟩
    rw [has_dropSent, has_dumped ((dump_iff A _ _).1 hd)]
    have hs : isSent A w = false ↔ ∀ a, w = .atom a → A.sent a = false := by
      cases w <;> simp [isSent]
    rw [hs]
    constructor
    · rintro ⟨⟨v, hv, hvw⟩, hw⟩
      exact ⟨((has_select _ _ _ _).1 hv).2, ⟨v, ((has_select _ _ _ _).1 hv).1, hvw⟩, hw⟩
    · rintro ⟨hk, ⟨v, hv, hvw⟩, hw⟩
      exact ⟨⟨v, (has_select _ _ _ _).2 ⟨hv, hk⟩, hvw⟩, hw⟩

example : toDict demoAtoms demoLoads natLe .python { excl := [.str 1] }
    (.dcons (.str 1) (.atom (.num 7)) (.dcons (.str 2) (.atom .unset) (.dcons (.str 3) (.coll .model (.dcons (.str 4) (.atom (.num 5)) .nil)) .nil))) =
    .ok (.coll .dict (.dcons (.str 3) (.coll .dict (.dcons (.str 4) (.atom (.num 5)) .nil)) .nil)) := by decide

/-! ### C167 -/

/-- Nothing in it is a set. -/
def NoSets : Data α → Prop
  | .atom _ => True
  | .coll .set _ => False
  | .coll .frozenset _ => False
  | .coll _ s => NoSets s
  | .nil => True
  | .lcons h t => NoSets h ∧ NoSets t
  | .dcons _ v t => NoSets v ∧ NoSets t
  | .scons _ t => NoSets t

theorem noSets_equal {x y : Data α} {ae ke : α → α → Prop} (h : Equal ae ke x y) : NoSets x ↔ NoSets y := by
  induction h with
  | refl x => rfl
  | symm _ ih => exact ih.symm
  | trans _ _ ih1 ih2 => exact ih1.trans ih2
  | atom _ => simp [NoSets]
  | @coll c s t _ ih => cases c <;> simp [NoSets, ih]
  | lcons _ _ ih1 ih2 => simp [NoSets, ih1, ih2]
  | dcons _ _ _ ih1 ih2 => simp [NoSets, ih1, ih2]
  | dswap _ => simp [NoSets, and_left_comm]
  | scons _ ih => simp [NoSets, ih]
  | sswap => simp [NoSets]

theorem select_equal (sel : Select α) {x y : Data α} {ae ke : α → α → Prop} (hk : ∀ a b, ke a b → a = b) (h : Equal ae ke x y) :
    Equal ae ke (select sel x) (select sel y) := by
  induction h with
  | refl x => exact .refl _
  | symm _ ih => exact ih.symm
  | trans _ _ ih1 ih2 => exact ih1.trans ih2
  | atom h => exact .atom h
  | coll h _ => exact .coll h
  | lcons h1 h2 _ _ => exact .lcons h1 h2
  | @dcons k k' v v' t t' hke h1 h2 ih1 ih2 =>
    have e := hk _ _ hke
    subst e
    simp only [select]
    by_cases hs : sel.has k = true
    · rw [if_pos hs, if_pos hs]; exact .dcons hke h1 ih2
    · rw [if_neg hs, if_neg hs]; exact ih2
  | @dswap k k' v v' t hne =>
    simp only [select]
    by_cases hs : sel.has k = true <;> by_cases hs' : sel.has k' = true <;> simp only [hs, hs', if_true, if_false]
    · exact .dswap hne
    · exact .refl _
    · exact .refl _
    · exact .refl _
  | scons h _ => exact .scons h
  | sswap => exact .sswap

/-- Two optional values related. -/
def Both (r : Data α → Data α → Prop) : Option (Data α) → Option (Data α) → Prop
  | some a, some b => r a b
  | none, none => True
  | _, _ => False

theorem dump_equal (A : Atoms α σ γ) {x y : Data α} {ae ke : α → α → Prop} (h : Equal ae ke x y) : Both (Equal ae ke) (dump A x) (dump A y) := by
  induction h with
  | refl x => cases dump A x with
    | none => trivial
    | some a => exact .refl a
  | @symm x y _ ih =>
    cases hx : dump A x <;> cases hy : dump A y <;> rw [hx, hy] at ih <;> first | trivial | exact ih.elim | exact ih.symm
  | @trans x y z _ _ ih1 ih2 =>
    cases hx : dump A x <;> cases hy : dump A y <;> cases hz : dump A z <;> rw [hx, hy] at ih1 <;> rw [hy, hz] at ih2 <;>
      first | trivial | exact ih1.elim | exact ih2.elim | exact ih1.trans ih2
  | atom h => exact .atom h
  | @coll c s t h ih =>
    cases hs : dump A s <;> cases ht : dump A t <;> rw [hs, ht] at ih <;> cases c <;> simp only [dump, hs, ht, Option.map] <;>
      first | trivial | exact ih.elim | exact .coll ih
  | @lcons h h' t t' _ _ ih1 ih2 =>
    simp only [dump]
    cases ha : dump A h <;> cases hb : dump A h' <;> rw [ha, hb] at ih1 <;> first | exact ih1.elim | skip
    · trivial
    · cases hc : dump A t <;> cases hd : dump A t' <;> rw [hc, hd] at ih2 <;> first | exact ih2.elim | trivial | exact .lcons ih1 ih2
  | @dcons k k' v v' t t' hk _ _ ih1 ih2 =>
    simp only [dump]
    cases ha : dump A v <;> cases hb : dump A v' <;> rw [ha, hb] at ih1 <;> first | exact ih1.elim | skip
    · trivial
    · cases hc : dump A t <;> cases hd : dump A t' <;> rw [hc, hd] at ih2 <;> first | exact ih2.elim | trivial | exact .dcons hk ih1 ih2
  | @dswap k k' v v' t hne =>
    simp only [dump]
    cases dump A v <;> cases dump A v' <;> cases dump A t <;> first | trivial | exact .dswap hne
  | @scons a t t' _ ih =>
    simp only [dump]
    cases A.isModel a
    · cases hc : dump A t <;> cases hd : dump A t' <;> rw [hc, hd] at ih <;> first | exact ih.elim | trivial | exact .scons ih
    · trivial
  | @sswap a b t =>
    simp only [dump]
    cases A.isModel a <;> cases A.isModel b <;> cases dump A t <;> first | trivial | exact .sswap

theorem isSent_equal (A : Atoms α σ γ) {x y : Data α} {ae ke : α → α → Prop} (ha : ∀ a b, ae a b → A.sent a = A.sent b) (h : Equal ae ke x y) :
    isSent A x = isSent A y := by
  induction h with
  | symm _ ih => exact ih.symm
  | trans _ _ ih1 ih2 => exact ih1.trans ih2
  | atom h => exact ha _ _ h
  | _ => rfl

theorem dropSent_equal (A : Atoms α σ γ) {x y : Data α} {ae ke : α → α → Prop} (ha : ∀ a b, ae a b → A.sent a = A.sent b) (h : Equal ae ke x y) :
    Equal ae ke (dropSent A x) (dropSent A y) := by
  induction h with
  | refl x => exact .refl _
  | symm _ ih => exact ih.symm
  | trans _ _ ih1 ih2 => exact ih1.trans ih2
  | atom h => exact .atom h
  | coll h _ => exact .coll h
  | lcons h1 h2 _ _ => exact .lcons h1 h2
  | @dcons k k' v v' t t' hke h1 h2 ih1 ih2 =>
    simp only [dropSent, isSent_equal A ha h1]
    cases isSent A v'
    · exact .dcons hke h1 ih2
    · exact ih2
  | @dswap k k' v v' t hne =>
    simp only [dropSent]
    cases isSent A v <;> cases isSent A v' <;> simp only [if_true, Bool.false_eq_true, if_false]
    · exact .dswap hne
    · exact .refl _
    · exact .refl _
    · exact .refl _
  | scons h _ => exact .scons h
  | sswap => exact .sswap

/-- What `_to_dict` gives for models with the same content. -/
theorem toDictPy_equal (A : Atoms α σ γ) (sel : Select α) {x y : Data α} {ae ke : α → α → Prop} (hk : ∀ a b, ke a b → a = b)
    (ha : ∀ a b, ae a b → A.sent a = A.sent b) (h : Equal ae ke x y) :
    (∃ e, toDictPy A sel x = .error e ∧ toDictPy A sel y = .error e) ∨
    ∃ d d', toDictPy A sel x = .ok d ∧ toDictPy A sel y = .ok d' ∧ Equal ae ke d d' := by
  have hb := dump_equal A (select_equal sel hk h)
  unfold toDictPy
  cases hx : dump A (select sel x) <;> cases hy : dump A (select sel y) <;> rw [hx, hy] at hb
  · exact .inl ⟨_, rfl, rfl⟩
  · exact hb.elim
  · exact hb.elim
  · exact .inr ⟨_, _, rfl, rfl, dropSent_equal A ha hb⟩

theorem toJson_equal (A : Atoms α σ γ) (le : σ → σ → Bool) (ho : IsOrder le) (hinj : ∀ a b s, A.key a = some s → A.key b = some s → a = b)
    {x y : Data α} {ke : α → α → Prop} (hk : ∀ a b, ke a b → a = b) (h : Equal (· = ·) ke x y) : NoSets x → toJson A le x = toJson A le y := by
  induction h with
  | refl x => intro _; rfl
  | symm h ih => intro hn; exact (ih ((noSets_equal h).2 hn)).symm
  | trans h1 h2 ih1 ih2 => intro hn; rw [ih1 hn, ih2 ((noSets_equal h1).1 hn)]
  | atom h => intro _; rw [h]
  | @coll c s t h ih =>
    intro hn
    cases c <;> simp only [NoSets] at hn <;> simp only [toJson, ih hn]
  | lcons _ _ ih1 ih2 => intro hn; simp only [toJson, ih1 hn.1, ih2 hn.2]
  | dcons hke _ _ ih1 ih2 => intro hn; simp only [toJson, ih1 hn.1, ih2 hn.2, hk _ _ hke]
  | @dswap k k' v v' t hne =>
    intro _
    simp only [toJson]
    cases hk1 : A.key k with
    | none => cases A.key k' <;> cases toJson A le v' <;> rfl
    | some s =>
      cases hk2 : A.key k' with
      | none => cases toJson A le v <;> rfl
      | some s' =>
        cases toJson A le v <;> cases toJson A le v' <;> cases toJson A le t <;> try rfl
        simp only [Option.bind_some, Option.map_some, Option.some.injEq]
        refine insertKey_comm le ho ?_ _ _ _
        rintro rfl
        exact hne (hinj _ _ _ hk1 hk2)
  | scons _ ih => intro hn; simp only [toJson]; exact ih hn
  | sswap => intro _; rfl

/-- C167: models with the same content have the same JSON text. This fails for sets: the same set iterated in two orders gives two texts. -/
theorem C167_violation :
    Equal (α := At) (· = ·) (· = ·) (.dcons (.str 1) (.coll .set (.scons (.num 1) (.scons (.num 2) .nil))) .nil)
      (.dcons (.str 1) (.coll .set (.scons (.num 2) (.scons (.num 1) .nil))) .nil) ∧
    modelJson demoAtoms natLe {} (.dcons (.str 1) (.coll .set (.scons (.num 1) (.scons (.num 2) .nil))) .nil) ≠
      modelJson demoAtoms natLe {} (.dcons (.str 1) (.coll .set (.scons (.num 2) (.scons (.num 1) .nil))) .nil) :=
  ⟨.dcons rfl (.coll .sswap) (.refl _), by decide⟩

theorem noSets_select (sel : Select α) : ∀ {x : Data α}, NoSets x → NoSets (select sel x) := by
  intro x
  induction x with
  | dcons k v t _ ih =>
    intro h
    simp only [select]
    split
    · exact ⟨h.1, ih h.2⟩
    · exact ih h.2
  | _ => intro h; exact h

theorem noSets_dumped {isModel : α → Bool} {x y : Data α} (h : Dumped isModel x y) : NoSets x → NoSets y := by
  induction h with
  | @coll c s t hc _ ih => intro hn; cases c <;> simp only [NoSets] at hn ⊢ <;> first | exact ih hn | exact hn
  | model _ ih => exact ih
  | lcons _ _ ih1 ih2 => intro hn; exact ⟨ih1 hn.1, ih2 hn.2⟩
  | dcons _ _ ih1 ih2 => intro hn; exact ⟨ih1 hn.1, ih2 hn.2⟩
  | scons _ _ ih => exact ih
  | _ => intro hn; exact hn

theorem noSets_dropSent (A : Atoms α σ γ) : ∀ {x : Data α}, NoSets x → NoSets (dropSent A x) := by
  intro x
  induction x with
  | dcons k v t _ ih =>
    intro h
    simp only [dropSent]
    split
    · exact ih h.2
    · exact ⟨h.1, ih h.2⟩
  | _ => intro h; exact h

/-- C167 (partial): missing: fields that contain sets. Otherwise `to_json` of two models with the same content gives the same text (or the same error), in whatever order fields and dict entries were given at any depth. -/
theorem C167_json_deterministic_partial (A : Atoms α σ γ) (le : σ → σ → Bool) (ho : IsOrder le)
    (hinj : ∀ a b s, A.key a = some s → A.key b = some s → a = b) (sel : Select α) (x y : Data α)
    (h : Equal (· = ·) (· = ·) x y) (hn : NoSets x) : modelJson A le sel x = modelJson A le sel y := by
  rcases toDictPy_equal A sel (fun _ _ e => e) (fun _ _ e => by rw [e]) h with ⟨e, h1, h2⟩ | ⟨d, d', h1, h2, hd⟩
  · unfold modelJson; rw [h1, h2]
  · unfold modelJson; rw [h1, h2]
    have hnd : NoSets d := by
      unfold toDictPy at h1
      cases hx : dump A (select sel x) with
      | none => rw [hx] at h1; cases h1
      | some e =>
        rw [hx] at h1
        injection h1 with h1
        rw [← h1]
        exact noSets_dropSent A (noSets_dumped ((dump_iff A _ _).1 hx) (noSets_select sel hn))
    simp only
    rw [toJson_equal A le ho hinj (fun _ _ e => e) (Equal.coll (c := .dict) hd) hnd]

example : modelJson demoAtoms natLe {} (.dcons (.str 2) (.atom (.num 7)) (.dcons (.str 1) (.coll .dict (.dcons (.str 4) (.atom (.num 1)) (.dcons (.str 3) (.atom (.num 2)) .nil))) .nil)) =
    .ok (.node 0 (.kcons 1 (.node 0 (.kcons 3 (.leaf (.num 2)) (.kcons 4 (.leaf (.num 1)) .nil))) (.kcons 2 (.leaf (.num 7)) .nil))) := by decide

/-! ### C168 -/

/-- Data with a JSON form: every atom has one, every dict key is a string, and the keys of each dict are distinct. -/
def Jsonable (A : Atoms α σ γ) : Data α → Prop
  | .atom a => ∃ j, A.json a = some j
  | .coll _ s => Jsonable A s
  | .nil => True
  | .lcons h t => Jsonable A h ∧ Jsonable A t
  | .dcons k v t => (∃ s, A.key k = some s) ∧ k ∉ keys t ∧ Jsonable A v ∧ Jsonable A t
  | .scons a t => (∃ j, A.json a = some j) ∧ Jsonable A t

/-- The data as JSON shows them: models as objects; lists, tuples and sets as arrays. -/
def jsonForm : Data α → Data α
  | .coll .dict s => .coll .dict (jsonForm s)
  | .coll .model s => .coll .dict (jsonForm s)
  | .coll _ s => .coll .list (jsonForm s)
  | .lcons h t => .lcons (jsonForm h) (jsonForm t)
  | .dcons k v t => .dcons k (jsonForm v) (jsonForm t)
  | .scons a t => .lcons (.atom a) (jsonForm t)
  | x => x

/-- A chain of set elements. -/
def IsElems : Data α → Prop
  | .nil => True
  | .scons _ t => IsElems t
  | _ => False

/-- Collections hold chains of their kind. -/
def Shaped : Data α → Prop
  | .coll .set s => IsElems s
  | .coll .frozenset s => IsElems s
  | .coll _ s => Shaped s
  | .lcons h t => Shaped h ∧ Shaped t
  | .dcons _ v t => Shaped v ∧ Shaped t
  | .scons _ _ => False
  | _ => True

/-- The keys of a JSON object under construction. -/
def repKeys : Rep γ σ → List σ
  | .kcons k _ t => k :: repKeys t
  | _ => []

theorem repKeys_insert (le : σ → σ → Bool) (k : σ) (r x : Rep γ σ) (s : σ) : s ∈ repKeys (insertKey le k r x) ↔ s = k ∨ s ∈ repKeys x := by
  induction x with
  | kcons k' r' t _ ih =>
    simp only [insertKey]
    split
    · simp [repKeys]
    · simp [repKeys, ih]; constructor
      · rintro (h | h | h) <;> simp [h]
      · rintro (h | h | h) <;> simp [h]
  | _ => simp [insertKey, repKeys]

theorem loads_insert (L : Loads α σ γ) (le : σ → σ → Bool) (k : σ) (r : Rep γ σ) : ∀ x : Rep γ σ, (∀ s ∈ repKeys x, L.key s ≠ L.key k) →
    Equal (· = ·) (· = ·) (loads L (insertKey le k r x)) (.dcons (L.key k) (loads L r) (loads L x)) := by
  intro x
  induction x with
  | kcons k' r' t _ ih =>
    intro h
    simp only [insertKey]
    split
    · exact .refl _
    · simp only [loads]
      refine Equal.trans (.dcons rfl (.refl _) (ih (fun s hs => h s (by simp [repKeys, hs])))) ?_
      exact .dswap (h k' (by simp [repKeys]))
  | _ => intro h; exact .refl _

/-- JSON scalars and keys are read back as they were written. -/
structure Faithful (A : Atoms α σ γ) (L : Loads α σ γ) : Prop where
  leaf : ∀ a j, A.json a = some j → L.leaf j = a
  key : ∀ k s, A.key k = some s → L.key s = k

theorem toJson_keys (A : Atoms α σ γ) (L : Loads α σ γ) (hL : Faithful A L) (le : σ → σ → Bool) : ∀ (x : Data α) (j : Rep γ σ), Shaped x →
    toJson A le x = some j → ∀ s ∈ repKeys j, L.key s ∈ keys x := by
  intro x
  induction x with
  | dcons k v t ih1 ih2 =>
    intro j hsh hj s hs
    simp only [toJson, Option.bind_eq_some_iff, Option.map_eq_some_iff] at hj
    obtain ⟨k', hk', v', hv', t', ht', rfl⟩ := hj
    rcases (repKeys_insert le k' v' t' s).1 hs with rfl | hs
    · simp [keys, hL.key _ _ hk']
    · simp [keys, ih2 t' hsh.2 ht' s hs]
  | atom a => intro j _ hj s hs; simp only [toJson, Option.map_eq_some_iff] at hj; obtain ⟨_, _, rfl⟩ := hj; simp [repKeys] at hs
  | coll c y ih =>
    intro j _ hj s hs
    cases c <;> simp only [toJson, Option.map_eq_some_iff] at hj <;> obtain ⟨_, _, rfl⟩ := hj <;> simp [repKeys] at hs
  | nil => intro j _ hj s hs; simp only [toJson, Option.some.injEq] at hj; subst hj; simp [repKeys] at hs
  | lcons h t _ _ =>
    intro j _ hj s hs
    simp only [toJson, Option.bind_eq_some_iff, Option.map_eq_some_iff] at hj
    obtain ⟨_, _, _, _, rfl⟩ := hj
    simp [repKeys] at hs
  | scons a t _ => intro j hsh; exact hsh.elim

theorem atomsJson_ok (A : Atoms α σ γ) (L : Loads α σ γ) (hL : Faithful A L) : ∀ s : Data α, IsElems s → Jsonable A s →
    ∃ j, atomsJson A (elems s) = some j ∧ loads L j = jsonForm s := by
  intro s
  induction s with
  | nil => intro _ _; exact ⟨.nil, rfl, rfl⟩
  | scons a t ih =>
    intro h hj
    obtain ⟨⟨j, hja⟩, hjt⟩ := hj
    obtain ⟨r, hr, hl⟩ := ih h hjt
    exact ⟨.cons (.leaf j) r, by simp [elems, atomsJson, hja, hr], by simp [loads, jsonForm, hl, hL.leaf _ _ hja]⟩
  | _ => intro h; exact h.elim

theorem toJson_ok (A : Atoms α σ γ) (L : Loads α σ γ) (hL : Faithful A L) (le : σ → σ → Bool) : ∀ x : Data α, Shaped x → Jsonable A x →
    ∃ j, toJson A le x = some j ∧ Equal (· = ·) (· = ·) (loads L j) (jsonForm x) := by
  intro x
  induction x with
  | atom a => intro _ ⟨j, hj⟩; exact ⟨.leaf j, by simp [toJson, hj], by simp only [loads, jsonForm, hL.leaf _ _ hj]; exact .refl _⟩
  | coll c s ih =>
    intro hs hj
    cases c with
    | set =>
      obtain ⟨r, hr, hl⟩ := atomsJson_ok A L hL s hs hj
      exact ⟨.node 1 r, by simp [toJson, hr], by simp only [loads, jsonForm, hl]; exact .refl _⟩
    | frozenset =>
      obtain ⟨r, hr, hl⟩ := atomsJson_ok A L hL s hs hj
      exact ⟨.node 1 r, by simp [toJson, hr], by simp only [loads, jsonForm, hl]; exact .refl _⟩
    | dict =>
      obtain ⟨r, hr, hl⟩ := ih hs hj
      exact ⟨.node 0 r, by simp [toJson, hr], .coll hl⟩
    | model =>
      obtain ⟨r, hr, hl⟩ := ih hs hj
      exact ⟨.node 0 r, by simp [toJson, hr], .coll hl⟩
    | list =>
      obtain ⟨r, hr, hl⟩ := ih hs hj
      exact ⟨.node 1 r, by simp [toJson, hr], .coll hl⟩
    | tuple =>
      obtain ⟨r, hr, hl⟩ := ih hs hj
      exact ⟨.node 1 r, by simp [toJson, hr], .coll hl⟩
  | nil => intro _ _; exact ⟨.nil, rfl, .refl _⟩
  | lcons h t ih1 ih2 =>
    intro hs hj
    obtain ⟨r1, hr1, hl1⟩ := ih1 hs.1 hj.1
    obtain ⟨r2, hr2, hl2⟩ := ih2 hs.2 hj.2
    exact ⟨.cons r1 r2, by simp [toJson, hr1, hr2], .lcons hl1 hl2⟩
  | dcons k v t ih1 ih2 =>
    intro hs hj
    obtain ⟨⟨k', hk'⟩, hnk, hjv, hjt⟩ := hj
    obtain ⟨r1, hr1, hl1⟩ := ih1 hs.1 hjv
    obtain ⟨r2, hr2, hl2⟩ := ih2 hs.2 hjt
    refine ⟨insertKey le k' r1 r2, by simp [toJson, hk', hr1, hr2], ?_⟩
    refine Equal.trans (loads_insert L le k' r1 r2 (fun s hs' e => ?_)) ?_
    · apply hnk
      have := toJson_keys A L hL le t r2 hs.2 hr2 s hs'
      rwa [e, hL.key _ _ hk'] at this
    · simp only [jsonForm, hL.key _ _ hk']
      exact .dcons rfl hl1 hl2
  | scons a t _ => intro hs; exact hs.elim

/-- Why C168 asks for JSON data: the sentinels are not. It would fail when a nested model has an unset field: `to_dict()` shows the sentinel, and `to_json()` and `to_dict(mode="json")` raise `TypeError`. -/
theorem C168_sentinel_limit :
    toDict demoAtoms demoLoads natLe .python {} (.dcons (.str 1) (.coll .model (.dcons (.str 2) (.atom .unset) .nil)) .nil) =
      .ok (.coll .dict (.dcons (.str 1) (.coll .dict (.dcons (.str 2) (.atom .unset) .nil)) .nil)) ∧
    toDict demoAtoms demoLoads natLe .json {} (.dcons (.str 1) (.coll .model (.dcons (.str 2) (.atom .unset) .nil)) .nil) = .error .typeError := by
  decide

/-- C168: if everything `to_dict()` shows has a JSON form (strings as keys), then `to_dict(mode="json")` succeeds and shows the same data, with tuples and sets as lists. -/
theorem C168_json_mode (A : Atoms α σ γ) (L : Loads α σ γ) (hL : Faithful A L) (le : σ → σ → Bool) (fields d : Data α)
    (h : toDict A L le .python {} fields = .ok d) (hj : Jsonable A d) (hs : Shaped d) :
    ∃ d', toDict A L le .json {} fields = .ok d' ∧ Equal (· = ·) (· = ·) d' (jsonForm d) := by
  simp only [toDict] at h
  cases hd : toDictPy A {} fields with
  | error e => rw [hd] at h; cases h
  | ok e =>
    rw [hd] at h
    simp only [Except.map, Except.ok.injEq] at h
    subst h
    obtain ⟨j, hj', hl⟩ := toJson_ok A L hL le (.coll .dict e) hs hj
    refine ⟨loads L j, ?_, hl⟩
    simp only [toDict, modelJson, hd, hj', Except.map]

example : Faithful demoAtoms demoLoads :=
  ⟨fun a j h => by cases a <;> simp [demoAtoms, At.json] at h <;> exact h.symm, fun k s h => by cases k <;> simp [demoAtoms, At.key] at h; rw [← h]; rfl⟩

example : toDict demoAtoms demoLoads natLe .json {} (.dcons (.str 3) (.coll .tuple (.lcons (.atom (.num 1)) .nil)) (.dcons (.str 1) (.coll .set (.scons (.num 2) .nil)) (.dcons (.str 2) (.atom .unset) .nil))) =
    .ok (.coll .dict (.dcons (.str 1) (.coll .list (.lcons (.atom (.num 2)) .nil)) (.dcons (.str 3) (.coll .list (.lcons (.atom (.num 1)) .nil)) .nil))) := by decide

/-! ### C169 -/

/-- The fields of an instance of the class: its field names in order. -/
def Instance (C : Class α) (x : Data α) : Prop := IsChain x ∧ keys x = C.fields.map Prod.fst

theorem lookup_has : ∀ (x : Data α) (k : α) (v : Data α), (keys x).Nodup → (lookup k x = some v ↔ Has k v x) := by
  intro x
  induction x with
  | dcons k' v' t _ ih =>
    intro k v hn
    simp only [keys, List.nodup_cons] at hn
    simp only [lookup]
    by_cases h : k' = k
    · subst h
      rw [if_pos rfl]
      constructor
      · intro e; cases e; exact .head
      · intro hh
        cases hh with
        | head => rfl
        | tail hh =>
          exfalso; apply hn.1
          clear ih hn
          induction hh with
          | head => simp [keys]
          | tail _ ih => simp [keys, ih]
    · rw [if_neg h, ih k v hn.2]
      constructor
      · exact .tail
      · intro hh
        cases hh with
        | head => exact absurd rfl h
        | tail hh => exact hh
  | _ => intro k v _; simp only [lookup]; constructor <;> (intro h; cases h)

theorem has_keys {x : Data α} {k : α} {v : Data α} (h : Has k v x) : k ∈ keys x := by
  induction h with
  | head => simp [keys]
  | tail _ ih => simp [keys, ih]

theorem keys_has : ∀ {x : Data α} {k : α}, k ∈ keys x → ∃ v, Has k v x := by
  intro x
  induction x with
  | dcons k' v t _ ih =>
    intro k h
    simp only [keys, List.mem_cons] at h
    rcases h with rfl | h
    · exact ⟨v, .head⟩
    · obtain ⟨v, hv⟩ := ih h; exact ⟨v, .tail hv⟩
  | _ => intro k h; simp [keys] at h

theorem select_all : ∀ x : Data α, select ({} : Select α) x = x := by
  intro x
  induction x with
  | dcons k v t _ ih => simp [select, Select.has, ih]
  | _ => rfl

theorem keys_dumped {isModel : α → Bool} {x y : Data α} (h : Dumped isModel x y) : keys y = keys x := by
  induction h with
  | dcons _ _ _ ih => simp [keys, ih]
  | _ => rfl

theorem keys_dropSent (A : Atoms α σ γ) : ∀ x : Data α, (keys (dropSent A x)).Sublist (keys x) := by
  intro x
  induction x with
  | dcons k v t _ ih =>
    simp only [dropSent]
    split
    · exact ih.cons k
    · exact ih.cons_cons k
  | _ => exact List.Sublist.refl _

theorem keysIn_iff (ks : List α) : ∀ x : Data α, (∀ k ∈ keys x, k ∈ ks) → keysIn ks x = true := by
  intro x
  induction x with
  | dcons k v t _ ih =>
    intro h
    simp only [keysIn, Bool.and_eq_true, decide_eq_true_eq]
    exact ⟨h k (by simp [keys]), ih (fun k' hk' => h k' (by simp [keys, hk']))⟩
  | _ => intro _; rfl

theorem validateFields_ok (C : Class α) (d : Data α) : ∀ (fs : List (α × Option (Data α))) (x : Data α), IsChain x → keys x = fs.map Prod.fst → (keys x).Nodup →
    (∀ f ∈ fs, ∀ v, Has f.1 v x → fieldValue C d f = some v) → validateFields C d fs = some x := by
  intro fs
  induction fs with
  | nil =>
    intro x hc hk _ _
    cases x with
    | nil => rfl
    | dcons k v t => simp [keys] at hk
    | _ => exact hc.elim
  | cons f fs ih =>
    intro x hc hk hn h
    cases x with
    | dcons k v t =>
      simp only [keys, List.map_cons, List.cons.injEq] at hk
      simp only [keys, List.nodup_cons] at hn
      have h1 := h f List.mem_cons_self v (by rw [← hk.1]; exact .head)
      have h2 := ih t hc hk.2 hn.2 (fun f' hf' v' hv' => h f' (List.mem_cons_of_mem _ hf') v' (.tail hv'))
      simp [validateFields, h1, h2, hk.1]
    | nil => simp [keys] at hk
    | _ => exact hc.elim

/-- C169: `from_dict(m.to_dict())` has the fields of `m`. This fails for unset fields: one with another default comes back with that default, and one without default is an error. -/
theorem C169_violation :
    toDict demoAtoms demoLoads natLe .python {} (.dcons (.str 1) (.atom .unset) .nil) = .ok (.coll .dict .nil) ∧
    fromDict (α := At) ⟨[(.str 1, some (.atom (.num 30)))], fun _ v => some v⟩ (.coll .dict .nil) = .ok (.dcons (.str 1) (.atom (.num 30)) .nil) ∧
    fromDict (α := At) ⟨[(.str 1, none)], fun _ v => some v⟩ (.coll .dict .nil) = .error .validation := by decide

/-- C169 (partial): missing: fields that hold a sentinel other than their default. If validation accepts every dumped field value and gives the value back, and fields holding a sentinel have it as default, then `from_dict(m.to_dict())` has exactly the fields of `m`. -/
theorem C169_round_trip_partial (A : Atoms α σ γ) (L : Loads α σ γ) (le : σ → σ → Bool) (C : Class α) (hC : (C.fields.map Prod.fst).Nodup)
    (x d : Data α) (hx : Instance C x) (h : toDict A L le .python {} x = .ok d)
    (hv : ∀ k v w, Has k v x → Dumped A.isModel v w → C.validate k w = some v)
    (hs : ∀ k a, Has k (.atom a) x → A.sent a = true → (k, some (.atom a)) ∈ C.fields) :
    fromDict C d = .ok x := by
  obtain ⟨e, rfl, hE⟩ := C166_select_partial A L le {} x d h
  have hxn : (keys x).Nodup := by rw [hx.2]; exact hC
  have hed : ∃ y, Dumped A.isModel x y ∧ e = dropSent A y := by
    simp only [toDict, toDictPy, select_all] at h
    cases hy : dump A x with
    | none => rw [hy] at h; cases h
    | some y =>
      rw [hy] at h
      simp only [Except.map, Except.ok.injEq, Data.coll.injEq, true_and] at h
      exact ⟨y, (dump_iff A _ _).1 hy, h.symm⟩
  obtain ⟨y, hxy, rfl⟩ := hed
  have hsub : (keys (dropSent A y)).Sublist (keys x) := by
    have := keys_dropSent A y
    rwa [keys_dumped hxy] at this
  have hen : (keys (dropSent A y)).Nodup := hxn.sublist hsub
  have hval : validateFields C (dropSent A y) C.fields = some x := by
    refine validateFields_ok C _ C.fields x hx.1 hx.2 hxn (fun f hf v hfv => ?_)
    obtain ⟨w, hw⟩ : ∃ w, Has f.1 w y := keys_has (by rw [keys_dumped hxy]; exact has_keys hfv)
    obtain ⟨v', hv', hd'⟩ := (has_dumped hxy f.1 w).1 hw
    have hvv : v' = v := by
      have a1 := (lookup_has x f.1 v' hxn).2 hv'
      have a2 := (lookup_has x f.1 v hxn).2 hfv
      rw [a1] at a2; exact Option.some.inj a2
    subst hvv
    unfold fieldValue
    by_cases hsent : isSent A w = true
    · have hnone : lookup f.1 (dropSent A y) = none := by
        cases hl : lookup f.1 (dropSent A y) with
        | none => rfl
        | some u =>
          exfalso
          obtain ⟨hu, hu'⟩ := (has_dropSent A f.1 u y).1 ((lookup_has _ _ _ hen).1 hl)
          have hyn : (keys y).Nodup := by rw [keys_dumped hxy]; exact hxn
          have a1 := (lookup_has y f.1 u hyn).2 hu
          have a2 := (lookup_has y f.1 w hyn).2 hw
          rw [a1] at a2
          rw [Option.some.inj a2, hsent] at hu'
          cases hu'
      rw [hnone]
      cases w with
      | atom a =>
        cases hd' with
        | atom =>
          have hm := hs f.1 a hfv hsent
          have key : ∀ (l : List (α × Option (Data α))), (l.map Prod.fst).Nodup → ∀ k o o', (k, o) ∈ l → (k, o') ∈ l → o = o' := by
            intro l
            induction l with
            | nil => intro _ _ _ _ h; simp at h
            | cons q l ih =>
              intro hn k o o' ho ho'
              simp only [List.map_cons, List.nodup_cons] at hn
              rcases List.mem_cons.1 ho with rfl | ho <;> rcases List.mem_cons.1 ho' with e | ho'
              · exact (Prod.mk.inj e).2.symm
              · exact absurd (List.mem_map_of_mem (f := Prod.fst) ho') hn.1
              · rw [← e] at hn; exact absurd (List.mem_map_of_mem (f := Prod.fst) ho) hn.1
              · exact ih hn.2 k o o' ho ho'
          exact key C.fields hC f.1 f.2 _ hf hm
      | _ => simp [isSent] at hsent
    · have hlook : lookup f.1 (dropSent A y) = some w := (lookup_has _ _ _ hen).2 ((has_dropSent A f.1 w y).2 ⟨hw, by simpa using hsent⟩)
      rw [hlook]
      exact hv f.1 v' w hfv hd'
  simp only [fromDict]
  rw [if_pos (keysIn_iff _ _ (fun k hk => by rw [← hx.2]; exact hsub.subset hk)), hval]

example : fromDict (α := At) ⟨[(.str 1, some (.atom .unset)), (.str 2, none)], fun _ v => some v⟩ (.coll .dict (.dcons (.str 2) (.atom (.num 7)) .nil)) =
    .ok (.dcons (.str 1) (.atom .unset) (.dcons (.str 2) (.atom (.num 7)) .nil)) := by decide

/-! ### C170 -/

/-- Python's `==` on field values: as `HashDict.Equal`, and a set equals a frozenset with the same elements. -/
inductive PyEq (atomEq keyEq : α → α → Prop) : Data α → Data α → Prop where
  | equal {x y} : Equal atomEq keyEq x y → PyEq atomEq keyEq x y
  | frozen {s} : PyEq atomEq keyEq (.coll .set s) (.coll .frozenset s)
  | dcons {k v v' t t'} : PyEq atomEq keyEq v v' → PyEq atomEq keyEq t t' → PyEq atomEq keyEq (.dcons k v t) (.dcons k v' t')

/-- Atom operations for the examples: texts are numbers, sets of numbers are sorted. -/
def demoOps : Ops At At Nat where
  prim := id
  str := fun a => match a with
    | .str n => n
    | _ => 0
  strLe := natLe
  cmp := fun _ _ => true
  le := fun _ _ => true
  typeLe := fun _ _ => true

/-- C170: equal models have equal hashes, and hashing never raises. Both fail: a field with `{1}` equals one with `frozenset({1})`, yet what is hashed differs (and so does every collision-free hash); a field with a set of models cannot be hashed. -/
theorem C170_violation (hash : Rep At Nat → Int) (hinj : ∀ r r', hash r = hash r' → r = r') :
    PyEq (α := At) (· = ·) (· = ·) (.dcons (.str 1) (.coll .set (.scons (.num 1) .nil)) .nil) (.dcons (.str 1) (.coll .frozenset (.scons (.num 1) .nil)) .nil) ∧
    hashModel demoAtoms demoOps hash (.dcons (.str 1) (.coll .set (.scons (.num 1) .nil)) .nil) ≠
      hashModel demoAtoms demoOps hash (.dcons (.str 1) (.coll .frozenset (.scons (.num 1) .nil)) .nil) ∧
    hashModel demoAtoms demoOps hash (.dcons (.str 1) (.coll .set (.scons (.model 1) .nil)) .nil) = .error .typeError := by
  refine ⟨.dcons .frozen (.equal (.refl _)), ?_, rfl⟩
  intro h
  have h' : hash (rep demoOps (.coll .dict (.dcons (.str 1) (.coll .set (.scons (.num 1) .nil)) .nil))) =
      hash (rep demoOps (.coll .dict (.dcons (.str 1) (.coll .frozenset (.scons (.num 1) .nil)) .nil))) := Except.ok.inj h
  exact absurd (hinj _ _ h') (by decide)

/-- C170 (partial): missing: sets compared with frozensets, sets of models, keys or set elements that `str` and `<` do not separate (see C61). Otherwise models with equal fields have equal hashes (or both fail), and without models in sets hashing never raises. -/
theorem C170_hash_partial (A : Atoms α σ γ) (O : Ops α β σ) (hash : Rep β σ → Int) (atomEq : α → α → Prop)
    (hs : IsOrder O.strLe) (hle : IsOrder O.le) (hty : IsOrder O.typeLe) (hinj : ∀ k k', O.str k = O.str k' → k = k')
    (hatom : ∀ a b, atomEq a b → O.prim a = O.prim b) (hsent : ∀ a b, atomEq a b → A.sent a = A.sent b) :
    (∀ x y : Data α, Equal atomEq (· = ·) x y → hashModel A O hash x = hashModel A O hash y) ∧
    (∀ x w : Data α, Dumped A.isModel x w → ∃ n, hashModel A O hash x = .ok n) := by
  refine ⟨?_, ?_⟩
  · intro x y h
    unfold hashModel
    rcases toDictPy_equal A {} (fun _ _ e => e) hsent h with ⟨e, h1, h2⟩ | ⟨d, d', h1, h2, hd⟩
    · rw [h1, h2]
    · rw [h1, h2]
      simp only
      rw [C61_order_insensitive O hash atomEq (· = ·) hs hle hty hinj (fun _ _ e => by rw [e]) hatom (Equal.coll (c := .dict) hd)]
  · intro x w h
    refine ⟨hashDict O hash (.coll .dict (dropSent A w)), ?_⟩
    unfold hashModel toDictPy
    rw [select_all, (dump_iff A x w).2 h]

theorem natLe_order : IsOrder natLe :=
  ⟨fun a b c h1 h2 => by simp [natLe] at *; omega, fun a b => by simp [natLe]; omega, fun a b h1 h2 => by simp [natLe] at *; omega⟩

/-- Atoms that are numbers: the hypotheses hold, and two orders of the entries of a dict give one hash. -/
example (hash : Rep Nat Nat → Int) :
    hashModel (⟨fun _ => false, fun _ => false, some, some⟩ : Atoms Nat Nat Nat) (⟨id, id, natLe, fun _ _ => true, natLe, natLe⟩ : Ops Nat Nat Nat) hash
        (.dcons 1 (.coll .dict (.dcons 2 (.atom 5) (.dcons 3 (.atom 6) .nil))) .nil) =
      hashModel ⟨fun _ => false, fun _ => false, some, some⟩ ⟨id, id, natLe, fun _ _ => true, natLe, natLe⟩ hash
        (.dcons 1 (.coll .dict (.dcons 3 (.atom 6) (.dcons 2 (.atom 5) .nil))) .nil) :=
  (C170_hash_partial _ _ hash (· = ·) natLe_order natLe_order natLe_order (fun _ _ h => h) (fun _ _ h => h) (fun _ _ h => by rw [h])).1 _ _
    (.dcons rfl (.coll (.dswap (by decide))) (.refl _))

end Verif.HashModel
