import Verif.Model.HashDict

set_option linter.unusedSectionVars false
set_option linter.unusedSimpArgs false
set_option linter.unusedVariables false

namespace Verif.HashDict

variable {α β σ : Type}

/-! ## Specification -/

/-- Equality of data as Python sees it: dict entries and set elements in any order, equal atoms interchangeable as values (`atomEq`) and as
dict keys (`keyEq`). -/
inductive Equal (atomEq keyEq : α → α → Prop) : Data α → Data α → Prop where
  | refl (x) : Equal atomEq keyEq x x
  | symm {x y} : Equal atomEq keyEq x y → Equal atomEq keyEq y x
  | trans {x y z} : Equal atomEq keyEq x y → Equal atomEq keyEq y z → Equal atomEq keyEq x z
  | atom {a b} : atomEq a b → Equal atomEq keyEq (.atom a) (.atom b)
  | coll {c s t} : Equal atomEq keyEq s t → Equal atomEq keyEq (.coll c s) (.coll c t)
  | lcons {h h' t t'} : Equal atomEq keyEq h h' → Equal atomEq keyEq t t' → Equal atomEq keyEq (.lcons h t) (.lcons h' t')
  | dcons {k k' v v' t t'} : keyEq k k' → Equal atomEq keyEq v v' → Equal atomEq keyEq t t' →
      Equal atomEq keyEq (.dcons k v t) (.dcons k' v' t')
  | dswap {k k' v v' t} : k ≠ k' → Equal atomEq keyEq (.dcons k v (.dcons k' v' t)) (.dcons k' v' (.dcons k v t))
  | scons {a t t'} : Equal atomEq keyEq t t' → Equal atomEq keyEq (.scons a t) (.scons a t')
  | sswap {a b t} : Equal atomEq keyEq (.scons a (.scons b t)) (.scons b (.scons a t))

/-- A total order. -/
structure IsOrder {τ : Type} (le : τ → τ → Bool) : Prop where
  trans : ∀ a b c, le a b = true → le b c = true → le a c = true
  total : ∀ a b, le a b = true ∨ le b a = true
  antisymm : ∀ a b, le a b = true → le b a = true → a = b

/-! ## Lemmas -/

theorem insertKey_comm (le : σ → σ → Bool) (ho : IsOrder le) {k k' : σ} (hk : k ≠ k') (r r' : Rep β σ) : ∀ x : Rep β σ,
    insertKey le k r (insertKey le k' r' x) = insertKey le k' r' (insertKey le k r x) := by
  have two : ∀ y : Rep β σ, (if le k k' = true then Rep.kcons k r (.kcons k' r' y) else .kcons k' r' (.kcons k r y))
      = (if le k' k = true then .kcons k' r' (.kcons k r y) else .kcons k r (.kcons k' r' y)) := by
    intro y
    by_cases h1 : le k k' = true
    · have h2 : ¬ le k' k = true := fun h => hk (ho.antisymm _ _ h1 h)
      rw [if_pos h1, if_neg h2]
    · have h2 : le k' k = true := (ho.total k k').resolve_left h1
      rw [if_neg h1, if_pos h2]
  intro x
  induction x with
  | kcons a ra t _ ih =>
    by_cases hka : le k a = true
    · by_cases hka' : le k' a = true
      · simp only [insertKey, if_pos hka, if_pos hka']
        exact two _
      · have h1 : le k k' = true := ho.trans _ _ _ hka ((ho.total k' a).resolve_left hka')
        have h2 : ¬ le k' k = true := fun h => hka' (ho.trans _ _ _ h hka)
        simp only [insertKey, if_pos hka, if_neg hka', if_neg h2]
    · by_cases hka' : le k' a = true
      · have h2 : ¬ le k k' = true := fun h => hka (ho.trans _ _ _ h hka')
        simp only [insertKey, if_neg hka, if_pos hka', if_neg h2]
      · simp only [insertKey, if_neg hka, if_neg hka', ih]
  | leaf b => exact two _
  | node m i _ => exact two _
  | nil => exact two _
  | cons h t _ _ => exact two _

theorem insertBy_comm (le : α → α → Bool) (ho : IsOrder le) (k k' : α) : ∀ l : List α,
    insertBy le k (insertBy le k' l) = insertBy le k' (insertBy le k l) := by
  have two : ∀ y : List α, (if le k k' = true then k :: k' :: y else k' :: k :: y)
      = (if le k' k = true then k' :: k :: y else k :: k' :: y) := by
    intro y
    by_cases h1 : le k k' = true
    · by_cases h2 : le k' k = true
      · rw [if_pos h1, if_pos h2, ho.antisymm _ _ h1 h2]
      · rw [if_pos h1, if_neg h2]
    · have h2 : le k' k = true := (ho.total k k').resolve_left h1
      rw [if_neg h1, if_pos h2]
  intro l
  induction l with
  | nil => exact two _
  | cons a t ih =>
    by_cases hka : le k a = true
    · by_cases hka' : le k' a = true
      · simp only [insertBy, if_pos hka, if_pos hka']
        exact two _
      · have h2 : ¬ le k' k = true := fun h => hka' (ho.trans _ _ _ h hka)
        simp only [insertBy, if_pos hka, if_neg hka', if_neg h2]
    · by_cases hka' : le k' a = true
      · have h2 : ¬ le k k' = true := fun h => hka (ho.trans _ _ _ h hka')
        simp only [insertBy, if_neg hka, if_pos hka', if_neg h2]
      · simp only [insertBy, if_neg hka, if_neg hka', ih]

theorem sortBy_perm_eq (le : α → α → Bool) (ho : IsOrder le) {l l' : List α} (h : l.Perm l') : sortBy le l = sortBy le l' := by
  induction h with
  | nil => rfl
  | cons x _ ih => simp only [sortBy, ih]
  | swap x y l => simp only [sortBy, insertBy_comm le ho]
  | trans _ _ ih1 ih2 => exact ih1.trans ih2

theorem comparable_perm (O : Ops α β σ) {l l' : List α} (h : l.Perm l') : comparable O l = comparable O l' := by
  unfold comparable
  rw [Bool.eq_iff_iff]
  simp only [List.all_eq_true]
  constructor
  · intro hh a ha b hb; exact hh a (h.mem_iff.2 ha) b (h.mem_iff.2 hb)
  · intro hh a ha b hb; exact hh a (h.mem_iff.1 ha) b (h.mem_iff.1 hb)

theorem elems_equal {atomEq keyEq : α → α → Prop} {x y : Data α} (h : Equal atomEq keyEq x y) : (elems x).Perm (elems y) := by
  induction h with
  | refl x => exact List.Perm.refl _
  | symm _ ih => exact ih.symm
  | trans _ _ ih1 ih2 => exact ih1.trans ih2
  | atom _ => exact List.Perm.refl _
  | coll _ _ => exact List.Perm.refl _
  | lcons _ _ _ _ => exact List.Perm.refl _
  | dcons _ _ _ _ _ => exact List.Perm.refl _
  | dswap _ => exact List.Perm.refl _
  | scons _ ih => exact ih.cons _
  | sswap => exact List.Perm.swap _ _ _

/-! ## C61 -/

/-- Equal data have equal hashes, whatever the order of dict entries and set elements at any depth, provided: `str` separates distinct keys and
agrees on equal ones, and set elements are totally ordered by `<=` or, where that is undefined, by type and text. -/
theorem C61_order_insensitive (O : Ops α β σ) (hash : Rep β σ → Int) (atomEq keyEq : α → α → Prop)
    (hs : IsOrder O.strLe) (hle : IsOrder O.le) (hty : IsOrder O.typeLe)
    (hinj : ∀ k k', O.str k = O.str k' → k = k') (hkey : ∀ k k', keyEq k k' → O.str k = O.str k')
    (hatom : ∀ a b, atomEq a b → O.prim a = O.prim b)
    {x y : Data α} (h : Equal atomEq keyEq x y) : hashDict O hash x = hashDict O hash y := by
  have hset : ∀ {s t : Data α}, Equal atomEq keyEq s t → sortSet O (elems s) = sortSet O (elems t) := by
    intro s t hst
    have hp := elems_equal hst
    simp only [sortSet, comparable_perm O hp]
    rw [sortBy_perm_eq O.le hle hp, sortBy_perm_eq O.typeLe hty hp]
  have : rep O x = rep O y := by
    induction h with
    | refl x => rfl
    | symm _ ih => exact ih.symm
    | trans _ _ ih1 ih2 => exact ih1.trans ih2
    | atom h => simp only [rep, hatom _ _ h]
    | coll h ih =>
      rename_i c s t
      cases c <;> simp only [rep, ih, hset h]
    | lcons _ _ ih1 ih2 => simp only [rep, ih1, ih2]
    | dcons hk _ _ ih1 ih2 => simp only [rep, hkey _ _ hk, ih1, ih2]
    | dswap hk => simp only [rep]; exact insertKey_comm O.strLe hs (fun e => hk (hinj _ _ e)) _ _ _
    | scons _ ih => simp only [rep, ih]
    | sswap => simp only [rep]
  simp only [hashDict, this]

/-- Atoms for the examples: numbers, booleans, strings (by number) and frozensets of numbers. -/
inductive PyAtom where
  | int (n : Nat) | bool (b : Bool) | str (s : List Char) | fset (l : List Nat)
  deriving DecidableEq, Repr

/-- `str`; only needed for small numbers here. -/
def demoStr : PyAtom → List Char
  | .int n => (Nat.toDigits 10 n)
  | .bool b => if b then "True".toList else "False".toList
  | .str s => s
  | .fset _ => "frozenset".toList

/-- The value up to `==`: `True == 1`. -/
def demoPrim : PyAtom → PyAtom
  | .bool b => .int (if b then 1 else 0)
  | a => a

/-- Lexicographic order. -/
def lexLe : List Char → List Char → Bool
  | [], _ => true
  | _ :: _, [] => false
  | a :: s, b :: t => if a = b then lexLe s t else decide (a.val < b.val)

/-- `<=` on atoms of comparable types; on frozensets `not (b < a)` as `sorted` uses it. -/
def demoLe : PyAtom → PyAtom → Bool
  | .fset a, .fset b => !(b.all (fun x => a.contains x) && !a.all (fun x => b.contains x))
  | .int m, .int n => decide (m ≤ n)
  | .str s, .str t => lexLe s t
  | _, _ => true

def demoCmp : PyAtom → PyAtom → Bool
  | .str _, .str _ => true
  | .fset _, .fset _ => true
  | .int _, .int _ => true
  | .int _, .bool _ => true
  | .bool _, .int _ => true
  | .bool _, .bool _ => true
  | _, _ => false

def demoType : PyAtom → List Char
  | .int _ => "int".toList
  | .bool _ => "bool".toList
  | .str _ => "str".toList
  | .fset _ => "frozenset".toList

def demoOps : Ops PyAtom PyAtom (List Char) :=
  { prim := demoPrim, str := demoStr, strLe := lexLe, cmp := demoCmp, le := demoLe,
    typeLe := fun a b => lexLe (demoType a ++ '\x00' :: demoStr a) (demoType b ++ '\x00' :: demoStr b) }

/-- `{1: x}` and `{True: x}` are equal dicts with different representations. -/
theorem C61_equal_keys_limit :
    rep demoOps (.coll .dict (.dcons (.int 1) (.atom (.int 5)) .nil))
      ≠ rep demoOps (.coll .dict (.dcons (.bool true) (.atom (.int 5)) .nil)) := by decide

/-- `{1: x, "1": y}` and `{"1": y, 1: x}` are the same dict with different representations. -/
theorem C61_str_collision_limit :
    rep demoOps (.coll .dict (.dcons (.int 1) (.atom (.int 5)) (.dcons (.str ['1']) (.atom (.int 6)) .nil)))
      ≠ rep demoOps (.coll .dict (.dcons (.str ['1']) (.atom (.int 6)) (.dcons (.int 1) (.atom (.int 5)) .nil))) := by decide

/-- A set of two frozensets, `{frozenset({1}), frozenset({2})}`, has a representation that depends on the iteration order. -/
theorem C61_frozensets_limit :
    rep demoOps (.coll .set (.scons (.fset [1]) (.scons (.fset [2]) .nil)))
      ≠ rep demoOps (.coll .set (.scons (.fset [2]) (.scons (.fset [1]) .nil))) := by decide

/-- Natural numbers as atoms, for which the theorem's provisos hold. -/
def natOps : Ops Nat Nat Nat :=
  { prim := id, str := id, strLe := fun a b => decide (a ≤ b), cmp := fun _ _ => true, le := fun a b => decide (a ≤ b), typeLe := fun a b => decide (a ≤ b) }

example : IsOrder natOps.strLe :=
  ⟨fun a b c h h' => by simp only [natOps, decide_eq_true_eq] at *; omega, fun a b => by simp only [natOps, decide_eq_true_eq]; omega,
   fun a b h h' => by simp only [natOps, decide_eq_true_eq] at *; omega⟩

/-- `{1: [{2, 3}], 4: 5}` in two orders. -/
example : Equal (· = ·) (· = ·)
    (Data.coll .dict (.dcons 1 (.coll .list (.lcons (.coll .set (.scons 2 (.scons 3 .nil))) .nil)) (.dcons 4 (.atom 5) .nil)))
    (Data.coll .dict (.dcons 4 (.atom 5) (.dcons 1 (.coll .list (.lcons (.coll .set (.scons 3 (.scons 2 .nil))) .nil)) .nil))) :=
  .coll (.trans (.dcons rfl (.coll (.lcons (.coll .sswap) (.refl _))) (.refl _)) (.dswap (by decide)))

example : rep natOps (Data.coll .dict (.dcons 4 (.atom 5) (.dcons 1 (.atom 2) .nil)))
    = .node 0 (.kcons 1 (.leaf 2) (.kcons 4 (.leaf 5) .nil)) := by decide

/-! ## C120: the representation separates different data -/

/-- Sorts of terms: values, and the chains inside lists, dicts and sets. -/
inductive Srt where
  | value | items | entries | elements
  deriving DecidableEq

/-- The chain a collection holds. -/
def chainOf : Coll → Srt
  | .dict => .entries
  | .model => .entries
  | .list => .items
  | .tuple => .items
  | .set => .elements
  | .frozenset => .elements

/-- Proper data: every collection holds its own kind of chain. -/
def wf : Srt → Data α → Prop
  | .value, .atom _ => True
  | .value, .coll c s => wf (chainOf c) s
  | .items, .nil => True
  | .items, .lcons h t => wf .value h ∧ wf .items t
  | .entries, .nil => True
  | .entries, .dcons _ v t => wf .value v ∧ wf .entries t
  | .elements, .nil => True
  | .elements, .scons _ t => wf .elements t
  | _, _ => False

/-- Sorted insertion of an entry, on data. -/
def insertD (O : Ops α β σ) (k : α) (v : Data α) : Data α → Data α
  | .dcons k' v' t => if O.strLe (O.str k) (O.str k') then .dcons k v (.dcons k' v' t) else .dcons k' v' (insertD O k v t)
  | x => .dcons k v x

/-- A chain of set elements. -/
def setOf : List α → Data α
  | [] => .nil
  | a :: l => .scons a (setOf l)

/-- The data with all dicts and sets sorted. -/
def canon (O : Ops α β σ) : Data α → Data α
  | .atom a => .atom a
  | .coll .set s => .coll .set (setOf (sortSet O (elems s)))
  | .coll .frozenset s => .coll .frozenset (setOf (sortSet O (elems s)))
  | .coll .dict s => .coll .dict (canon O s)
  | .coll .model s => .coll .model (canon O s)
  | .coll .list s => .coll .list (canon O s)
  | .coll .tuple s => .coll .tuple (canon O s)
  | .nil => .nil
  | .lcons h t => .lcons (canon O h) (canon O t)
  | .dcons k v t => insertD O k (canon O v) (canon O t)
  | .scons a t => .scons a (canon O t)

/-- Representation without sorting. -/
def rep0 (O : Ops α β σ) : Data α → Rep β σ
  | .atom a => .leaf (O.prim a)
  | .coll .dict s => .node 0 (rep0 O s)
  | .coll .list s => .node 1 (rep0 O s)
  | .coll .tuple s => .node 2 (rep0 O s)
  | .coll .set s => .node 3 (rep0 O s)
  | .coll .frozenset s => .node 4 (rep0 O s)
  | .coll .model s => .node 5 (.node 0 (rep0 O s))
  | .nil => .nil
  | .lcons h t => .cons (rep0 O h) (rep0 O t)
  | .dcons k v t => .kcons (O.str k) (rep0 O v) (rep0 O t)
  | .scons a t => .cons (.leaf (O.prim a)) (rep0 O t)

variable {atomEq keyEq : α → α → Prop}

theorem equal_insertD (O : Ops α β σ) (hs : IsOrder O.strLe) (hkey : ∀ k, keyEq k k) (k : α) (v : Data α) : ∀ x : Data α,
    Equal atomEq keyEq (.dcons k v x) (insertD O k v x) := by
  intro x
  induction x with
  | dcons k' v' t _ ih =>
    simp only [insertD]
    split
    · exact .refl _
    · rename_i h
      have hne : k ≠ k' := by
        rintro rfl
        exact h ((hs.total (O.str k) (O.str k)).elim id id)
      exact .trans (.dswap hne) (.dcons (hkey _) (.refl _) ih)
  | _ => exact .refl _

theorem equal_setOf {l l' : List α} (h : l.Perm l') : Equal atomEq keyEq (setOf l) (setOf l') := by
  induction h with
  | nil => exact .refl _
  | cons x _ ih => exact .scons ih
  | swap x y l => exact .sswap
  | trans _ _ ih1 ih2 => exact .trans ih1 ih2

theorem setOf_elems : ∀ s : Data α, wf .elements s → setOf (elems s) = s
  | .nil, _ => rfl
  | .scons a t, h => by simp only [elems, setOf, setOf_elems t h]
  | .atom _, h => absurd h (by simp [wf])
  | .coll _ _, h => absurd h (by simp [wf])
  | .lcons _ _, h => absurd h (by simp [wf])
  | .dcons _ _ _, h => absurd h (by simp [wf])

theorem sortSet_perm (O : Ops α β σ) (l : List α) : (sortSet O l).Perm l := by
  simp only [sortSet]; split
  · exact sortBy_perm _ _
  · exact sortBy_perm _ _

theorem equal_canon (O : Ops α β σ) (hs : IsOrder O.strLe) (hkey : ∀ k, keyEq k k) : ∀ (x : Data α) (srt : Srt), wf srt x →
    Equal atomEq keyEq x (canon O x) := by
  intro x
  induction x with
  | atom a => intro _ _; exact .refl _
  | coll c s ih =>
    intro srt h
    have hw : wf (chainOf c) s := by
      cases srt <;> first | exact h | exact absurd h (by simp [wf])
    cases c with
    | set =>
      have := equal_setOf (atomEq := atomEq) (keyEq := keyEq) (sortSet_perm O (elems s)).symm
      rw [setOf_elems s hw] at this
      exact .coll this
    | frozenset =>
      have := equal_setOf (atomEq := atomEq) (keyEq := keyEq) (sortSet_perm O (elems s)).symm
      rw [setOf_elems s hw] at this
      exact .coll this
    | dict => exact .coll (ih _ hw)
    | model => exact .coll (ih _ hw)
    | list => exact .coll (ih _ hw)
    | tuple => exact .coll (ih _ hw)
  | nil => intro _ _; exact .refl _
  | lcons a t ih1 ih2 =>
    intro srt h
    cases srt <;> first | exact .lcons (ih1 .value h.1) (ih2 .items h.2) | exact absurd h (by simp [wf])
  | dcons k v t ih1 ih2 =>
    intro srt h
    cases srt <;> first
      | exact .trans (.dcons (hkey _) (ih1 .value h.1) (ih2 .entries h.2)) (equal_insertD O hs hkey k _ _)
      | exact absurd h (by simp [wf])
  | scons a t ih =>
    intro srt h
    cases srt <;> first | exact .scons (ih .elements h) | exact absurd h (by simp [wf])

theorem rep0_insertD (O : Ops α β σ) (k : α) (v : Data α) : ∀ x : Data α, wf .entries x →
    rep0 O (insertD O k v x) = insertKey O.strLe (O.str k) (rep0 O v) (rep0 O x)
  | .dcons k' v' t, h => by
    simp only [insertD, rep0, insertKey]
    split
    · simp only [rep0]
    · simp only [rep0, rep0_insertD O k v t h.2]
  | .nil, _ => by simp only [insertD, rep0, insertKey]
  | .atom _, h => absurd h (by simp [wf])
  | .coll _ _, h => absurd h (by simp [wf])
  | .lcons _ _, h => absurd h (by simp [wf])
  | .scons _ _, h => absurd h (by simp [wf])

theorem wf_insertD (O : Ops α β σ) (k : α) (v : Data α) (hv : wf .value v) : ∀ x : Data α, wf .entries x → wf .entries (insertD O k v x)
  | .dcons k' v' t, h => by
    simp only [insertD]
    split
    · exact ⟨hv, h⟩
    · exact ⟨h.1, wf_insertD O k v hv t h.2⟩
  | .nil, _ => ⟨hv, trivial⟩
  | .atom _, h => absurd h (by simp [wf])
  | .coll _ _, h => absurd h (by simp [wf])
  | .lcons _ _, h => absurd h (by simp [wf])
  | .scons _ _, h => absurd h (by simp [wf])

theorem wf_setOf : ∀ l : List α, wf .elements (setOf l)
  | [] => trivial
  | _ :: l => wf_setOf l

theorem wf_canon (O : Ops α β σ) : ∀ (x : Data α) (srt : Srt), wf srt x → wf srt (canon O x) := by
  intro x
  induction x with
  | atom a => intro _ h; exact h
  | coll c s ih =>
    intro srt h
    cases srt with
    | value =>
      have hw : wf (chainOf c) s := h
      cases c with
      | set => exact wf_setOf _
      | frozenset => exact wf_setOf _
      | dict => exact ih _ hw
      | model => exact ih _ hw
      | list => exact ih _ hw
      | tuple => exact ih _ hw
    | _ => exact absurd h (by simp [wf])
  | nil => intro _ h; exact h
  | lcons a t ih1 ih2 =>
    intro srt h
    cases srt <;> first | exact ⟨ih1 .value h.1, ih2 .items h.2⟩ | exact absurd h (by simp [wf])
  | dcons k v t ih1 ih2 =>
    intro srt h
    cases srt <;> first
      | exact wf_insertD O k _ (ih1 .value h.1) _ (ih2 .entries h.2)
      | exact absurd h (by simp [wf])
  | scons a t ih =>
    intro srt h
    cases srt <;> first | exact ih .elements h | exact absurd h (by simp [wf])

theorem rep0_setOf (O : Ops α β σ) : ∀ l : List α, rep0 O (setOf l) = atomsRep O l
  | [] => rfl
  | a :: l => by simp only [setOf, rep0, atomsRep, rep0_setOf O l]

theorem rep_canon (O : Ops α β σ) : ∀ (x : Data α) (srt : Srt), srt ≠ .elements → wf srt x → rep O x = rep0 O (canon O x) := by
  intro x
  induction x with
  | atom a => intro _ _ _; rfl
  | coll c s ih =>
    intro srt _ h
    have hw : wf (chainOf c) s := by
      cases srt <;> first | exact h | exact absurd h (by simp [wf])
    cases c with
    | set => simp only [rep, canon, rep0, rep0_setOf]
    | frozenset => simp only [rep, canon, rep0, rep0_setOf]
    | dict => simp only [rep, canon, rep0, ih _ (by decide) hw]
    | model => simp only [rep, canon, rep0, ih _ (by decide) hw]
    | list => simp only [rep, canon, rep0, ih _ (by decide) hw]
    | tuple => simp only [rep, canon, rep0, ih _ (by decide) hw]
  | nil => intro _ _ _; rfl
  | lcons a t ih1 ih2 =>
    intro srt _ h
    cases srt <;> first
      | (simp only [rep, canon, rep0, ih1 .value (by decide) h.1, ih2 .items (by decide) h.2]; done)
      | exact absurd h (by simp [wf])
  | dcons k v t ih1 ih2 =>
    intro srt _ h
    cases srt <;> first
      | (simp only [rep, canon, ih1 .value (by decide) h.1, ih2 .entries (by decide) h.2]
         rw [rep0_insertD O k _ _ (wf_canon O t .entries h.2)]; done)
      | exact absurd h (by simp [wf])
  | scons a t ih =>
    intro srt hn h
    cases srt <;> first | exact absurd rfl hn | exact absurd h (by simp [wf])

theorem rep0_inj (O : Ops α β σ) (hprim : ∀ a b, O.prim a = O.prim b → a = b) (hinj : ∀ k k', O.str k = O.str k' → k = k') :
    ∀ (x y : Data α) (srt : Srt), wf srt x → wf srt y → rep0 O x = rep0 O y → x = y := by
  intro x
  induction x with
  | atom a =>
    intro y srt hx hy h
    cases y with
    | atom b => simp only [rep0, Rep.leaf.injEq] at h; rw [hprim _ _ h]
    | coll c s => cases c <;> simp [rep0] at h
    | nil => simp [rep0] at h
    | lcons _ _ => simp [rep0] at h
    | dcons _ _ _ => simp [rep0] at h
    | scons _ _ => simp [rep0] at h
  | coll c s ih =>
    intro y srt hx hy h
    have hwx : wf (chainOf c) s := by
      cases srt <;> first | exact hx | exact absurd hx (by simp [wf])
    cases y with
    | coll c' s' =>
      have hwy : wf (chainOf c') s' := by
        cases srt <;> first | exact hy | exact absurd hy (by simp [wf])
      have hc : c = c' := by
        cases c <;> cases c' <;> simp [rep0] at h <;> rfl
      subst hc
      have he : rep0 O s = rep0 O s' := by cases c <;> simpa [rep0] using h
      rw [ih s' _ hwx hwy he]
    | atom b => cases c <;> simp [rep0] at h
    | nil => cases c <;> simp [rep0] at h
    | lcons _ _ => cases c <;> simp [rep0] at h
    | dcons _ _ _ => cases c <;> simp [rep0] at h
    | scons _ _ => cases c <;> simp [rep0] at h
  | nil =>
    intro y srt hx hy h
    cases y with
    | nil => rfl
    | coll c s => cases c <;> simp [rep0] at h
    | atom b => simp [rep0] at h
    | lcons _ _ => simp [rep0] at h
    | dcons _ _ _ => simp [rep0] at h
    | scons _ _ => simp [rep0] at h
  | lcons a t ih1 ih2 =>
    intro y srt hx hy h
    cases srt with
    | items =>
      cases y with
      | lcons a' t' =>
        simp only [rep0, Rep.cons.injEq] at h
        rw [ih1 a' .value hx.1 hy.1 h.1, ih2 t' .items hx.2 hy.2 h.2]
      | nil => simp [rep0] at h
      | _ => exact absurd hy (by simp [wf])
    | _ => exact absurd hx (by simp [wf])
  | dcons k v t ih1 ih2 =>
    intro y srt hx hy h
    cases srt with
    | entries =>
      cases y with
      | dcons k' v' t' =>
        simp only [rep0, Rep.kcons.injEq] at h
        rw [hinj _ _ h.1, ih1 v' .value hx.1 hy.1 h.2.1, ih2 t' .entries hx.2 hy.2 h.2.2]
      | nil => simp [rep0] at h
      | _ => exact absurd hy (by simp [wf])
    | _ => exact absurd hx (by simp [wf])
  | scons a t ih =>
    intro y srt hx hy h
    cases srt with
    | elements =>
      cases y with
      | scons a' t' =>
        simp only [rep0, Rep.cons.injEq, Rep.leaf.injEq] at h
        rw [hprim _ _ h.1, ih t' .elements hx hy h.2]
      | nil => simp [rep0] at h
      | _ => exact absurd hy (by simp [wf])
    | _ => exact absurd hx (by simp [wf])

/-- If Python's `hash` separates two representations, then data with the same `hash_dict` are equal; here atoms are taken up to `==`, and `str` separates keys.
The full claim has no proviso on `str`. -/
theorem C120_separates (O : Ops α β σ) (hash : Rep β σ → Int) (hs : IsOrder O.strLe)
    (hprim : ∀ a b, O.prim a = O.prim b → a = b) (hinj : ∀ k k', O.str k = O.str k' → k = k')
    {x y : Data α} (hx : wf .value x) (hy : wf .value y)
    (hh : ∀ r r', r = rep O x → r' = rep O y → hash r = hash r' → r = r')
    (h : hashDict O hash x = hashDict O hash y) : Equal (· = ·) (· = ·) x y := by
  have hr : rep O x = rep O y := hh _ _ rfl rfl h
  rw [rep_canon O x .value (by decide) hx, rep_canon O y .value (by decide) hy] at hr
  have hc := rep0_inj O hprim hinj _ _ .value (wf_canon O x _ hx) (wf_canon O y _ hy) hr
  have e1 := equal_canon (atomEq := (· = ·)) (keyEq := (· = ·)) O hs (fun _ => rfl) x .value hx
  have e2 := equal_canon (atomEq := (· = ·)) (keyEq := (· = ·)) O hs (fun _ => rfl) y .value hy
  rw [hc] at e1
  exact .trans e1 (.symm e2)

/-- Dicts with the keys `1` and `"1"` have the same representation. -/
theorem C120_keys_limit :
    rep demoOps (.coll .dict (.dcons (.int 1) (.atom (.int 5)) .nil))
      = rep demoOps (.coll .dict (.dcons (.str ['1']) (.atom (.int 5)) .nil)) := by decide

example : rep natOps (.coll .list (.lcons (.atom 1) .nil)) ≠ rep natOps (.coll .tuple (.lcons (.atom 1) .nil)) := by decide

end Verif.HashDict
