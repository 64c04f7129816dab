import Verif.Props.Element

/-! # C78, C132, C75: exact outcomes of reading a creation time and of assigning an attribute -/

set_option linter.unusedSectionVars false
set_option linter.unusedSimpArgs false
set_option linter.unusedVariables false

namespace Verif.Element
open Verif

variable {ι γ α φ : Type} [DecidableEq ι] [DecidableEq γ] [DecidableEq α]

/-- What a number means as a time: seconds since the epoch, in UTC; infinities overflow, NaN is a bad value. -/
inductive NumReads (L : TimeLib) : Num → Except Exc DateTime → Prop where
  | fin (q : Rat) (w : Int) (h : L.fromTs q = .ok w) : NumReads L (.fin q) (.ok ⟨w, some 0⟩)
  | far (q : Rat) (e : Exc) (h : L.fromTs q = .error e) : NumReads L (.fin q) (.error e)
  | inf : NumReads L .inf (.error .overflowError)
  | nan : NumReads L .nan (.error .valueError)

/-- What a text means as a time: a number if it is one that can be a time, otherwise an ISO date. -/
inductive TextReads (L : TimeLib) (s : List Char) : Except Exc DateTime → Prop where
  | num (n : Num) (r : Except Exc DateTime) (h : L.parseFloat s = some n) (hr : NumReads L n r) (hv : r ≠ .error .valueError) : TextReads L s r
  | iso (t : DateTime) (h : L.parseFloat s = none ∨ ∃ n, L.parseFloat s = some n ∧ NumReads L n (.error .valueError)) (hi : L.fromIso s = some t) :
      TextReads L s (.ok t)
  | bad (h : L.parseFloat s = none ∨ ∃ n, L.parseFloat s = some n ∧ NumReads L n (.error .valueError)) (hi : L.fromIso s = none) :
      TextReads L s (.error .valueError)

/-- What a value means as a creation time. -/
inductive TimeReads (L : TimeLib) : TimeArg → Except Exc DateTime → Prop where
  | aware (w o : Int) : TimeReads L (.dt ⟨w, some o⟩) (.ok ⟨w, some o⟩)
  | naive (w : Int) : TimeReads L (.dt ⟨w, none⟩) (.ok ⟨w, some 0⟩)
  | num (n : Num) (r : Except Exc DateTime) (h : NumReads L n r) : TimeReads L (.num n) r
  | str (s : List Char) (r : Except Exc DateTime) (h : TextReads L s r) : TimeReads L (.str s) r
  | other : TimeReads L .other (.error .valueError)

theorem numReads_iff (L : TimeLib) (n : Num) (r : Except Exc DateTime) : fromTimestamp L n = r ↔ NumReads L n r := by
  constructor
  · intro h
    subst h
    cases n with
    | fin q =>
      cases hq : L.fromTs q with
      | ok w => simp only [fromTimestamp, hq]; exact .fin q w hq
      | error e => simp only [fromTimestamp, hq]; exact .far q e hq
    | inf => exact .inf
    | nan => exact .nan
  · intro h
    cases h with
    | fin q w h => simp only [fromTimestamp, h]
    | far q e h => simp only [fromTimestamp, h]
    | inf => rfl
    | nan => rfl

theorem coerceIso_reads (L : TimeLib) (s : List Char) (h : L.parseFloat s = none ∨ ∃ n, L.parseFloat s = some n ∧ NumReads L n (.error .valueError)) :
    TextReads L s (coerceIso L s) := by
  unfold coerceIso
  cases hi : L.fromIso s with
  | none => exact .bad h hi
  | some t => exact .iso t h hi

theorem coerceStr_reads (L : TimeLib) (s : List Char) : TextReads L s (coerceStr L s) := by
  unfold coerceStr
  cases hp : L.parseFloat s with
  | none => exact coerceIso_reads L s (.inl hp)
  | some n =>
    simp only
    have hn := (numReads_iff L n _).1 rfl
    cases hf : fromTimestamp L n with
    | ok t =>
      rw [hf] at hn
      simp only
      exact .num n _ hp hn (by simp)
    | error e =>
      rw [hf] at hn
      by_cases he : e = .valueError
      · subst he; exact coerceIso_reads L s (.inr ⟨n, hp, hn⟩)
      · cases e <;> first | exact absurd rfl he | exact .num n _ hp hn (by simp)

theorem numReads_unique {L : TimeLib} {n : Num} {r r' : Except Exc DateTime} (h : NumReads L n r) (h' : NumReads L n r') : r = r' := by
  rw [← (numReads_iff L n r).2 h, (numReads_iff L n r').2 h']

theorem textReads_unique {L : TimeLib} {s : List Char} {r r' : Except Exc DateTime} (h : TextReads L s r) (h' : TextReads L s r') : r = r' := by
  have no : ∀ n r, L.parseFloat s = some n → NumReads L n r → r ≠ .error .valueError →
      (L.parseFloat s = none ∨ ∃ n, L.parseFloat s = some n ∧ NumReads L n (.error .valueError)) → False := by
    intro n r hn hr hv hh
    rcases hh with hh | ⟨n', hn', hr'⟩
    · rw [hh] at hn; cases hn
    · rw [hn] at hn'; cases hn'; exact hv (numReads_unique hr hr')
  cases h with
  | num n _ hn hr hv =>
    cases h' with
    | num n' _ hn' hr' hv' => rw [hn] at hn'; cases hn'; exact numReads_unique hr hr'
    | iso t hh hi => exact (no n r hn hr hv hh).elim
    | bad hh hi => exact (no n r hn hr hv hh).elim
  | iso t hh hi =>
    cases h' with
    | num n' _ hn' hr' hv' => exact (no n' r' hn' hr' hv' hh).elim
    | iso t' hh' hi' => rw [hi] at hi'; cases hi'; rfl
    | bad hh' hi' => rw [hi] at hi'; cases hi'
  | bad hh hi =>
    cases h' with
    | num n' _ hn' hr' hv' => exact (no n' r' hn' hr' hv' hh).elim
    | iso t' hh' hi' => rw [hi] at hi'; cases hi'
    | bad hh' hi' => rfl

/-- **C78, C132** (exact).  The outcome of reading a creation time is the one described by `TimeReads`, and no other. -/
theorem C132_exact_partial (L : TimeLib) (v : TimeArg) (r : Except Exc DateTime) : coerceCreatedAt L v = r ↔ TimeReads L v r := by
  constructor
  · intro h
    subst h
    cases v with
    | dt t =>
      obtain ⟨w, o⟩ := t
      cases o with
      | none => exact .naive w
      | some o => exact .aware w o
    | num n => exact .num n _ ((numReads_iff L n _).1 rfl)
    | str s => exact .str s _ (coerceStr_reads L s)
    | other => exact .other
  · intro h
    cases h with
    | aware => rfl
    | naive => rfl
    | num n _ h => exact (numReads_iff L n r).2 h
    | str s _ h => exact textReads_unique (coerceStr_reads L s) h
    | other => rfl

example : TimeReads sampleLib (.str ['i', 'n', 'f']) (.error .overflowError) := (C132_exact_partial _ _ _).1 (by decide +kernel)

/-- **C75** (assignment).  Assigning to an attribute: `id` and `created_at` are refused; `metadata` is replaced by the coerced value and nothing else
changes; a declared field takes the validated value and nothing else changes; every refusal leaves the element as it was and is a validation
error; an undeclared name is refused. -/
theorem C75_assign (W : World ι γ α φ) (x y : Elem ι γ α φ) (name : String) (v : DV ι α) (r : Except Exc Unit)
    (h : setAttr W x name v = (y, r)) :
    (r = .ok () ↔ name = "metadata" ∨ (name ≠ "id" ∧ name ≠ "created_at" ∧ name ∈ W.fieldNames x.cls ∧ ∃ f, W.valid x.cls name v = some f)) ∧
    (∀ e, r = .error e → e = .validation ∧ y = x) ∧
    y.id = x.id ∧ y.created = x.created ∧ y.cls = x.cls ∧
    (name = "metadata" → y = { x with metadata := validMeta W v }) ∧
    (name ≠ "metadata" → y.metadata = x.metadata ∧ (∀ f, f ≠ name → y.fields.get? f = x.fields.get? f)) ∧
    (r = .ok () → name ≠ "metadata" → ∃ f, W.valid x.cls name v = some f ∧ y.fields.get? name = some f) := by
  unfold setAttr at h
  split at h
  · next h1 =>
    cases h
    have hn : name ≠ "metadata" := by rcases h1 with h1 | h1 <;> simp [h1]
    refine ⟨⟨fun h => (by cases h), fun h => ?_⟩, fun e he => ⟨(by cases he; rfl), rfl⟩, rfl, rfl, rfl, fun h => absurd h hn, fun _ => ⟨rfl, fun _ _ => rfl⟩,
      fun h => (by cases h)⟩
    rcases h with h | ⟨h2, h3, _⟩
    · exact absurd h hn
    · rcases h1 with h1 | h1
      · exact absurd h1 h2
      · exact absurd h1 h3
  · next h1 =>
    split at h
    · next h2 =>
      cases h
      exact ⟨⟨fun _ => .inl h2, fun _ => rfl⟩, fun e he => (by cases he), rfl, rfl, rfl, fun _ => rfl, fun h => absurd h2 h, fun _ h => absurd h2 h⟩
    · next h2 =>
      split at h
      · next h3 =>
        have h3' : name ∈ W.fieldNames x.cls := by simpa using h3
        split at h
        · next f hv =>
          cases h
          refine ⟨⟨fun _ => .inr ⟨fun h => h1 (.inl h), fun h => h1 (.inr h), h3', f, hv⟩, fun _ => rfl⟩, fun e he => (by cases he), rfl, rfl, rfl,
            fun h => absurd h h2, fun _ => ⟨rfl, fun g hg => ?_⟩, fun _ _ => ⟨f, hv, ?_⟩⟩
          · rw [Dict.get?_set, if_neg (Ne.symm hg)]
          · rw [Dict.get?_set, if_pos rfl]
        · next hv =>
          cases h
          refine ⟨⟨fun h => (by cases h), fun h => ?_⟩, fun e he => ⟨(by cases he; rfl), rfl⟩, rfl, rfl, rfl, fun h => absurd h h2,
            fun _ => ⟨rfl, fun _ _ => rfl⟩, fun h => (by cases h)⟩
          rcases h with h | ⟨_, _, _, f, hf⟩
          · exact absurd h h2
          · rw [hv] at hf; cases hf
      · next h3 =>
        cases h
        refine ⟨⟨fun h => (by cases h), fun h => ?_⟩, fun e he => ⟨(by cases he; rfl), rfl⟩, rfl, rfl, rfl, fun h => absurd h h2,
          fun _ => ⟨rfl, fun _ _ => rfl⟩, fun h => (by cases h)⟩
        rcases h with h | ⟨_, _, hm, _⟩
        · exact absurd h h2
        · exact absurd (by simpa using hm) h3

end Verif.Element
