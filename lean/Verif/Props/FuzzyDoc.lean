import Verif.Model.FuzzyRead
import Verif.Props.Json
import Verif.Props.FuzzyTokens

/-!
# Property C230: `fuzzy_json` reads a sloppily written document as the value it denotes
-/

set_option linter.unusedSectionVars false
set_option linter.unusedSimpArgs false
set_option linter.unusedVariables false

namespace Verif.FuzzyJson

/-! ## Specification: sloppy JSON -/

/-- White space, possibly none. -/
def Gap (ts : List Tok) : Prop := ∀ t ∈ ts, t.isWs = true

/-- Text that needs no escapes. -/
def Plain (s : Str) : Prop := ∀ c ∈ s, 32 ≤ c.toNat ∧ c ≠ '\\'

/-- A key in quotes of either kind, or (`bk`) bare. -/
def KeyTok (bk : Bool) (k : Str) (t : Tok) : Prop := Plain k ∧ ((∃ q, t = .str q k) ∨ (bk = true ∧ t = .bare k))

mutual
/-- The tokens denote the value.  `tr`: a comma may precede a closing bracket; `bk`: keys may be bare words.  Strings may be in quotes of either
kind, white space may be anywhere between tokens. -/
def Sloppy (tr bk : Bool) : Json.J → List Tok → Prop
  | .token t _, ts => ts = [.bare t]
  | .str x, ts => Plain x ∧ ∃ q, ts = [.str q x]
  | .arr l, ts => ∃ b, ts = .opening true :: (b ++ [.closing true]) ∧ SItems tr bk l b
  | .obj l, ts => ∃ b, ts = .opening false :: (b ++ [.closing false]) ∧ SFields tr bk l b
/-- The tokens between square brackets. -/
def SItems (tr bk : Bool) : List Json.J → List Tok → Prop
  | [], b => Gap b
  | v :: l, b => ∃ w u w', Gap w ∧ Sloppy tr bk v u ∧ Gap w' ∧
      ((l = [] ∧ b = w ++ (u ++ w')) ∨
       ((l ≠ [] ∨ tr = true) ∧ ∃ r, SItems tr bk l r ∧ b = w ++ (u ++ (w' ++ .comma :: r))))
/-- The tokens between braces. -/
def SFields (tr bk : Bool) : List (Str × Json.J) → List Tok → Prop
  | [], b => Gap b
  | (k, v) :: l, b => ∃ w t w1 w2 u w', Gap w ∧ KeyTok bk k t ∧ Gap w1 ∧ Gap w2 ∧ Sloppy tr bk v u ∧ Gap w' ∧
      ((l = [] ∧ b = w ++ t :: (w1 ++ .colon :: (w2 ++ (u ++ w')))) ∨
       ((l ≠ [] ∨ tr = true) ∧ ∃ r, SFields tr bk l r ∧ b = w ++ t :: (w1 ++ .colon :: (w2 ++ (u ++ (w' ++ .comma :: r))))))
end

/-- What `fuzzy_json` may return: a dict, or a list of dicts. -/
inductive Returns : Json.J → J Json.J → Prop
  | dict (l : List (Str × Json.J)) : Returns (.obj l) (.dict (.obj l))
  | list (ls : List (List (Str × Json.J))) : Returns (.arr (ls.map .obj)) (.list (ls.map fun l => some (.obj l)))

/-! ## Removing trailing commas -/

/-- Strings in double quotes, white space a single blank. -/
def Normed (ts : List Tok) : Prop := ∀ t ∈ ts, t.norm = t

theorem norm_norm (t : Tok) : t.norm.norm = t.norm := by cases t <;> rfl

theorem normed_map (ts : List Tok) : Normed (ts.map Tok.norm) := by
  intro t ht
  obtain ⟨u, _, rfl⟩ := List.mem_map.1 ht
  exact norm_norm u

theorem normed_append {a b : List Tok} : Normed (a ++ b) ↔ Normed a ∧ Normed b := by
  unfold Normed
  constructor
  · exact fun h => ⟨fun t ht => h t (List.mem_append_left _ ht), fun t ht => h t (List.mem_append_right _ ht)⟩
  · rintro ⟨h1, h2⟩ t ht
    rcases List.mem_append.1 ht with h | h
    · exact h1 t h
    · exact h2 t h

theorem normed_cons {t : Tok} {b : List Tok} : Normed (t :: b) ↔ t.norm = t ∧ Normed b := by
  unfold Normed; simp

theorem normed_nil : Normed [] := fun _ h => by cases h

theorem gap_nil : Gap [] := fun _ h => by cases h

theorem gap_cons {t : Tok} {w : List Tok} (h : Gap (t :: w)) : (∃ s, t = .ws s) ∧ Gap w := by
  refine ⟨?_, fun u hu => h u (List.mem_cons_of_mem _ hu)⟩
  have := h t List.mem_cons_self
  cases t <;> first | exact ⟨_, rfl⟩ | cases this

theorem gap_norm {w : List Tok} (h : Gap w) : Gap (w.map Tok.norm) := by
  intro t ht
  obtain ⟨u, hu, rfl⟩ := List.mem_map.1 ht
  have := h u hu
  cases u <;> first | rfl | cases this

theorem gap_append {a b : List Tok} (ha : Gap a) (hb : Gap b) : Gap (a ++ b) := by
  intro t ht
  rcases List.mem_append.1 ht with h | h
  · exact ha t h
  · exact hb t h

theorem skip_gap (w r : List Tok) (h : Gap w) : skip (w ++ r) = skip r := by
  induction w with
  | nil => rfl
  | cons t w ih =>
    obtain ⟨⟨s, rfl⟩, hw⟩ := gap_cons h
    rw [List.cons_append, skip_cons_ws, ih hw]

theorem skip_gap_nil (w : List Tok) (h : Gap w) : skip w = [] := by
  have := skip_gap w [] h
  rw [List.append_nil] at this
  exact this

theorem nt_ws (s : Str) (r : List Tok) : noTrailing false (.ws s :: r) = .ws s :: noTrailing false r := rfl

theorem nt_gap (w r : List Tok) (h : Gap w) : noTrailing false (w ++ r) = w ++ noTrailing false r := by
  induction w with
  | nil => rfl
  | cons t w ih =>
    obtain ⟨⟨s, rfl⟩, hw⟩ := gap_cons h
    rw [List.cons_append, nt_ws, ih hw, List.cons_append]

theorem nt_gap_true (w r : List Tok) (h : Gap w) : noTrailing true (w ++ r) = noTrailing true r := by
  induction w with
  | nil => rfl
  | cons t w ih =>
    obtain ⟨⟨s, rfl⟩, hw⟩ := gap_cons h
    rw [List.cons_append, noTrailing, ih hw]

theorem nt_closing (sk q : Bool) (r : List Tok) : noTrailing sk (.closing q :: r) = .closing q :: noTrailing false r := by
  cases sk <;> rfl

theorem nt_opening (q : Bool) (r : List Tok) : noTrailing false (.opening q :: r) = .opening q :: noTrailing false r := rfl
theorem nt_bare (s : Str) (r : List Tok) : noTrailing false (.bare s :: r) = .bare s :: noTrailing false r := rfl
theorem nt_str (q : Bool) (s : Str) (r : List Tok) : noTrailing false (.str q s :: r) = .str q s :: noTrailing false r := rfl
theorem nt_colon (r : List Tok) : noTrailing false (.colon :: r) = .colon :: noTrailing false r := rfl
theorem nt_comma_keep (r : List Tok) (h : closesNext r = false) : noTrailing false (.comma :: r) = .comma :: noTrailing false r := by
  rw [noTrailing, h]; simp
theorem nt_comma_drop (r : List Tok) (h : closesNext r = true) : noTrailing false (.comma :: r) = noTrailing true r := by
  rw [noTrailing, h]; simp

/-- The first token of a value. -/
theorem sloppy_head {tr bk : Bool} {v : Json.J} {u : List Tok} (h : Sloppy tr bk v u) :
    ∃ t r, u = t :: r ∧ t.isWs = false ∧ t.isClosing = false ∧ t ≠ .colon ∧ t ≠ .comma := by
  cases v with
  | token t ht => rw [Sloppy] at h; subst h; exact ⟨_, _, rfl, rfl, rfl, by simp, by simp⟩
  | str x => rw [Sloppy] at h; obtain ⟨_, q, rfl⟩ := h; exact ⟨_, _, rfl, rfl, rfl, by simp, by simp⟩
  | arr l => rw [Sloppy] at h; obtain ⟨b, rfl, _⟩ := h; exact ⟨_, _, rfl, rfl, rfl, by simp, by simp⟩
  | obj l => rw [Sloppy] at h; obtain ⟨b, rfl, _⟩ := h; exact ⟨_, _, rfl, rfl, rfl, by simp, by simp⟩

theorem keyTok_head {bk : Bool} {k : Str} {t : Tok} (h : KeyTok bk k t) : t.isWs = false ∧ t.isClosing = false ∧ t ≠ .colon ∧ t ≠ .comma := by
  rcases h.2 with ⟨q, rfl⟩ | ⟨_, rfl⟩ <;> exact ⟨rfl, rfl, by simp, by simp⟩

theorem closesNext_items {tr bk : Bool} {l : List Json.J} {b : List Tok} (h : SItems tr bk l b) (hl : l ≠ []) (r : List Tok) : closesNext (b ++ r) = false := by
  cases l with
  | nil => exact absurd rfl hl
  | cons v l =>
    rw [SItems] at h
    obtain ⟨w, u, w', hw, hu, hw', h⟩ := h
    obtain ⟨t, x, rfl, h1, h2, _⟩ := sloppy_head hu
    unfold closesNext
    rcases h with ⟨_, rfl⟩ | ⟨_, _, _, rfl⟩ <;>
      · rw [List.append_assoc, skip_gap _ _ hw, List.cons_append, List.cons_append, skip_cons _ _ h1]
        simp [h2]

theorem closesNext_fields {tr bk : Bool} {l : List (Str × Json.J)} {b : List Tok} (h : SFields tr bk l b) (hl : l ≠ []) (r : List Tok) :
    closesNext (b ++ r) = false := by
  cases l with
  | nil => exact absurd rfl hl
  | cons kv l =>
    obtain ⟨k, v⟩ := kv
    rw [SFields] at h
    obtain ⟨w, t, w1, w2, u, w', hw, hk, hw1, hw2, hu, hw', h⟩ := h
    obtain ⟨h1, h2, _⟩ := keyTok_head hk
    unfold closesNext
    rcases h with ⟨_, rfl⟩ | ⟨_, _, _, rfl⟩ <;>
      · rw [List.append_assoc, skip_gap _ _ hw, List.cons_append, skip_cons _ _ h1]
        simp [h2]

theorem closesNext_gap (w r : List Tok) (q : Bool) (h : Gap w) : closesNext (w ++ .closing q :: r) = true := by
  unfold closesNext
  rw [skip_gap _ _ h, skip_cons _ _ rfl]
  rfl

theorem keyTok_norm {bk : Bool} {k : Str} {t : Tok} (h : KeyTok bk k t) : KeyTok bk k t.norm := by
  rcases h with ⟨hp, ⟨q, rfl⟩ | ⟨hb, rfl⟩⟩
  · exact ⟨hp, Or.inl ⟨true, rfl⟩⟩
  · exact ⟨hp, Or.inr ⟨hb, rfl⟩⟩

mutual
/-- Sloppy tokens stay so when quotes and white space are normalised. -/
theorem sloppy_norm {tr bk : Bool} : ∀ (v : Json.J) (u : List Tok), Sloppy tr bk v u → Sloppy tr bk v (u.map Tok.norm)
  | .token t _, u, h => by rw [Sloppy] at h ⊢; subst h; rfl
  | .str x, u, h => by rw [Sloppy] at h ⊢; obtain ⟨hp, q, rfl⟩ := h; exact ⟨hp, true, rfl⟩
  | .arr l, u, h => by
    rw [Sloppy] at h ⊢
    obtain ⟨b, rfl, hb⟩ := h
    exact ⟨b.map Tok.norm, by simp [Tok.norm], sitems_norm l b hb⟩
  | .obj l, u, h => by
    rw [Sloppy] at h ⊢
    obtain ⟨b, rfl, hb⟩ := h
    exact ⟨b.map Tok.norm, by simp [Tok.norm], sfields_norm l b hb⟩
theorem sitems_norm {tr bk : Bool} : ∀ (l : List Json.J) (b : List Tok), SItems tr bk l b → SItems tr bk l (b.map Tok.norm)
  | [], b, h => by rw [SItems] at h ⊢; exact gap_norm h
  | v :: l, b, h => by
    rw [SItems] at h ⊢
    obtain ⟨w, u, w', hw, hu, hw', h⟩ := h
    refine ⟨w.map Tok.norm, u.map Tok.norm, w'.map Tok.norm, gap_norm hw, sloppy_norm v u hu, gap_norm hw', ?_⟩
    rcases h with ⟨rfl, rfl⟩ | ⟨hl, r, hr, rfl⟩
    · exact Or.inl ⟨rfl, by simp⟩
    · exact Or.inr ⟨hl, r.map Tok.norm, sitems_norm l r hr, by simp [Tok.norm]⟩
theorem sfields_norm {tr bk : Bool} : ∀ (l : List (Str × Json.J)) (b : List Tok), SFields tr bk l b → SFields tr bk l (b.map Tok.norm)
  | [], b, h => by rw [SFields] at h ⊢; exact gap_norm h
  | (k, v) :: l, b, h => by
    rw [SFields] at h ⊢
    obtain ⟨w, t, w1, w2, u, w', hw, hk, hw1, hw2, hu, hw', h⟩ := h
    refine ⟨w.map Tok.norm, t.norm, w1.map Tok.norm, w2.map Tok.norm, u.map Tok.norm, w'.map Tok.norm, gap_norm hw, keyTok_norm hk,
      gap_norm hw1, gap_norm hw2, sloppy_norm v u hu, gap_norm hw', ?_⟩
    rcases h with ⟨rfl, rfl⟩ | ⟨hl, r, hr, rfl⟩
    · exact Or.inl ⟨rfl, by simp [Tok.norm]⟩
    · exact Or.inr ⟨hl, r.map Tok.norm, sfields_norm l r hr, by simp [Tok.norm]⟩
end

theorem nt_key {bk : Bool} {k : Str} {t : Tok} (h : KeyTok bk k t) (r : List Tok) : noTrailing false (t :: r) = t :: noTrailing false r := by
  rcases h.2 with ⟨q, rfl⟩ | ⟨_, rfl⟩ <;> rfl

mutual
/-- Removing trailing commas. -/
theorem nt_val {tr bk : Bool} : ∀ (v : Json.J) (u : List Tok), Sloppy tr bk v u →
    ∃ u1, Sloppy false bk v u1 ∧ (∀ t ∈ u1, t ∈ u) ∧ ∀ r, noTrailing false (u ++ r) = u1 ++ noTrailing false r
  | .token t ht, u, h => by
    refine ⟨u, by rw [Sloppy] at h ⊢; exact h, fun _ h => h, fun r => ?_⟩
    rw [Sloppy] at h; subst h; rfl
  | .str x, u, h => by
    refine ⟨u, by rw [Sloppy] at h ⊢; exact h, fun _ h => h, fun r => ?_⟩
    rw [Sloppy] at h; obtain ⟨_, q, rfl⟩ := h; rfl
  | .arr l, u, h => by
    rw [Sloppy] at h
    obtain ⟨b, rfl, hb⟩ := h
    obtain ⟨b1, hb1, hm, he⟩ := nt_items l b hb
    refine ⟨.opening true :: (b1 ++ [.closing true]), by rw [Sloppy]; exact ⟨b1, rfl, hb1⟩, ?_, fun r => ?_⟩
    · intro t ht
      simp only [List.mem_cons, List.mem_append, List.not_mem_nil, or_false] at ht ⊢
      rcases ht with h | h | h
      · exact Or.inl h
      · exact Or.inr (Or.inl (hm t h))
      · exact Or.inr (Or.inr h)
    · simp only [List.cons_append, List.append_assoc, List.nil_append]
      rw [nt_opening, he]
  | .obj l, u, h => by
    rw [Sloppy] at h
    obtain ⟨b, rfl, hb⟩ := h
    obtain ⟨b1, hb1, hm, he⟩ := nt_fields l b hb
    refine ⟨.opening false :: (b1 ++ [.closing false]), by rw [Sloppy]; exact ⟨b1, rfl, hb1⟩, ?_, fun r => ?_⟩
    · intro t ht
      simp only [List.mem_cons, List.mem_append, List.not_mem_nil, or_false] at ht ⊢
      rcases ht with h | h | h
      · exact Or.inl h
      · exact Or.inr (Or.inl (hm t h))
      · exact Or.inr (Or.inr h)
    · simp only [List.cons_append, List.append_assoc, List.nil_append]
      rw [nt_opening, he]
theorem nt_items {tr bk : Bool} : ∀ (l : List Json.J) (b : List Tok), SItems tr bk l b →
    ∃ b1, SItems false bk l b1 ∧ (∀ t ∈ b1, t ∈ b) ∧ ∀ q r, noTrailing false (b ++ .closing q :: r) = b1 ++ .closing q :: noTrailing false r
  | [], b, h => by
    rw [SItems] at h
    exact ⟨b, by rw [SItems]; exact h, fun _ h => h, fun q r => by rw [nt_gap _ _ h, nt_closing]⟩
  | v :: l, b, h => by
    rw [SItems] at h
    obtain ⟨w, u, w', hw, hu, hw', h⟩ := h
    obtain ⟨u1, hu1, hm1, he1⟩ := nt_val v u hu
    rcases h with ⟨rfl, rfl⟩ | ⟨hl, r0, hr, rfl⟩
    · refine ⟨w ++ (u1 ++ w'), ?_, ?_, fun q r => ?_⟩
      · rw [SItems]; exact ⟨w, u1, w', hw, hu1, hw', Or.inl ⟨rfl, rfl⟩⟩
      · intro t ht; simp only [List.mem_append] at ht ⊢
        rcases ht with h | h | h
        · exact Or.inl h
        · exact Or.inr (Or.inl (hm1 t h))
        · exact Or.inr (Or.inr h)
      · simp only [List.append_assoc]
        rw [nt_gap _ _ hw, he1, nt_gap _ _ hw', nt_closing]
    · obtain ⟨b1, hb1, hm, he⟩ := nt_items l r0 hr
      cases l with
      | nil =>
        rw [SItems] at hr
        refine ⟨w ++ (u1 ++ w'), ?_, ?_, fun q r => ?_⟩
        · rw [SItems]; exact ⟨w, u1, w', hw, hu1, hw', Or.inl ⟨rfl, rfl⟩⟩
        · intro t ht; simp only [List.mem_append, List.mem_cons] at ht ⊢
          rcases ht with h | h | h
          · exact Or.inl h
          · exact Or.inr (Or.inl (hm1 t h))
          · exact Or.inr (Or.inr (Or.inl h))
        · simp only [List.append_assoc, List.cons_append]
          rw [nt_gap _ _ hw, he1, nt_gap _ _ hw', nt_comma_drop _ (closesNext_gap _ _ _ hr), nt_gap_true _ _ hr, nt_closing]
      | cons v' l' =>
        refine ⟨w ++ (u1 ++ (w' ++ .comma :: b1)), ?_, ?_, fun q r => ?_⟩
        · rw [SItems]; exact ⟨w, u1, w', hw, hu1, hw', Or.inr ⟨Or.inl (by simp), b1, hb1, rfl⟩⟩
        · intro t ht; simp only [List.mem_append, List.mem_cons] at ht ⊢
          rcases ht with h | h | h | h | h
          · exact Or.inl h
          · exact Or.inr (Or.inl (hm1 t h))
          · exact Or.inr (Or.inr (Or.inl h))
          · exact Or.inr (Or.inr (Or.inr (Or.inl h)))
          · exact Or.inr (Or.inr (Or.inr (Or.inr (hm t h))))
        · simp only [List.append_assoc, List.cons_append]
          rw [nt_gap _ _ hw, he1, nt_gap _ _ hw', nt_comma_keep _ (closesNext_items hr (by simp) _), he]
theorem nt_fields {tr bk : Bool} : ∀ (l : List (Str × Json.J)) (b : List Tok), SFields tr bk l b →
    ∃ b1, SFields false bk l b1 ∧ (∀ t ∈ b1, t ∈ b) ∧ ∀ q r, noTrailing false (b ++ .closing q :: r) = b1 ++ .closing q :: noTrailing false r
  | [], b, h => by
    rw [SFields] at h
    exact ⟨b, by rw [SFields]; exact h, fun _ h => h, fun q r => by rw [nt_gap _ _ h, nt_closing]⟩
  | (k, v) :: l, b, h => by
    rw [SFields] at h
    obtain ⟨w, t, w1, w2, u, w', hw, hk, hw1, hw2, hu, hw', h⟩ := h
    obtain ⟨u1, hu1, hm1, he1⟩ := nt_val v u hu
    rcases h with ⟨rfl, rfl⟩ | ⟨hl, r0, hr, rfl⟩
    · refine ⟨w ++ t :: (w1 ++ .colon :: (w2 ++ (u1 ++ w'))), ?_, ?_, fun q r => ?_⟩
      · rw [SFields]; exact ⟨w, t, w1, w2, u1, w', hw, hk, hw1, hw2, hu1, hw', Or.inl ⟨rfl, rfl⟩⟩
      · intro x hx; simp only [List.mem_append, List.mem_cons] at hx ⊢
        have := hm1 x
        grind
      · simp only [List.append_assoc, List.cons_append]
        rw [nt_gap _ _ hw, nt_key hk, nt_gap _ _ hw1, nt_colon, nt_gap _ _ hw2, he1, nt_gap _ _ hw', nt_closing]
    · obtain ⟨b1, hb1, hm, he⟩ := nt_fields l r0 hr
      cases l with
      | nil =>
        rw [SFields] at hr
        refine ⟨w ++ t :: (w1 ++ .colon :: (w2 ++ (u1 ++ w'))), ?_, ?_, fun q r => ?_⟩
        · rw [SFields]; exact ⟨w, t, w1, w2, u1, w', hw, hk, hw1, hw2, hu1, hw', Or.inl ⟨rfl, rfl⟩⟩
        · intro x hx; simp only [List.mem_append, List.mem_cons] at hx ⊢
          have := hm1 x
          grind
        · simp only [List.append_assoc, List.cons_append]
          rw [nt_gap _ _ hw, nt_key hk, nt_gap _ _ hw1, nt_colon, nt_gap _ _ hw2, he1, nt_gap _ _ hw',
            nt_comma_drop _ (closesNext_gap _ _ _ hr), nt_gap_true _ _ hr, nt_closing]
      | cons v' l' =>
        refine ⟨w ++ t :: (w1 ++ .colon :: (w2 ++ (u1 ++ (w' ++ .comma :: b1)))), ?_, ?_, fun q r => ?_⟩
        · rw [SFields]; exact ⟨w, t, w1, w2, u1, w', hw, hk, hw1, hw2, hu1, hw', Or.inr ⟨Or.inl (by simp), b1, hb1, rfl⟩⟩
        · intro x hx; simp only [List.mem_append, List.mem_cons] at hx ⊢
          have := hm1 x
          have := hm x
          grind
        · simp only [List.append_assoc, List.cons_append]
          rw [nt_gap _ _ hw, nt_key hk, nt_gap _ _ hw1, nt_colon, nt_gap _ _ hw2, he1, nt_gap _ _ hw',
            nt_comma_keep _ (closesNext_fields hr (by simp) _), he]
end

/-! ## Quoting bare keys -/

/-- `quoteBare` with enough fuel. -/
def qb (ts : List Tok) : List Tok := quoteBare ts.length ts

theorem quoteBare_fuel (m : Nat) : ∀ (ts : List Tok) (n : Nat), ts.length ≤ m → ts.length ≤ n → quoteBare n ts = qb ts := by
  induction m with
  | zero =>
    intro ts n h1 h2
    cases ts with
    | nil => cases n <;> rfl
    | cons t ts => simp at h1
  | succ m ih =>
    intro ts n h1 h2
    cases ts with
    | nil => cases n <;> rfl
    | cons t ts =>
      simp only [List.length_cons] at h1 h2
      cases n with
      | zero => omega
      | succ n =>
        rw [qb, List.length_cons, quoteBare, quoteBare]
        split
        · cases hk : keyAt ts with
          | none =>
            simp only
            rw [ih ts n (by omega) (by omega)]
            rfl
          | some p =>
            obtain ⟨k, r⟩ := p
            obtain ⟨_, ⟨pre, e⟩, _⟩ := keyAt_suffix ts k r hk
            have hl : r.length ≤ ts.length := by rw [e]; simp
            simp only
            rw [ih r n (by omega) (by omega), ih r ts.length (by omega) hl]
        · rw [ih ts n (by omega) (by omega)]
          rfl

theorem qb_plain (t : Tok) (ts : List Tok) (h : t.trigger = false) : qb (t :: ts) = t :: qb ts := by
  rw [qb, List.length_cons, quoteBare, if_neg (by simp [h])]
  rfl

theorem qb_none (t : Tok) (ts : List Tok) (h : keyAt ts = none) : qb (t :: ts) = t :: qb ts := by
  rw [qb, List.length_cons, quoteBare, h]
  split <;> rfl

theorem qb_some (t : Tok) (ts : List Tok) (k : Str) (r : List Tok) (ht : t.trigger = true) (h : keyAt ts = some (k, r)) :
    qb (t :: ts) = t :: .str true k :: .colon :: qb r := by
  rw [qb, List.length_cons, quoteBare, if_pos ht, h]
  simp only
  obtain ⟨_, ⟨pre, e⟩, _⟩ := keyAt_suffix ts k r h
  have hl : r.length ≤ ts.length := by rw [e]; simp
  rw [quoteBare_fuel r.length r ts.length (Nat.le_refl _) hl]

theorem qb_gap (w r : List Tok) (h : Gap w) : qb (w ++ r) = w ++ qb r := by
  induction w with
  | nil => rfl
  | cons t w ih =>
    obtain ⟨⟨s, rfl⟩, hw⟩ := gap_cons h
    rw [List.cons_append, qb_plain _ _ rfl, ih hw, List.cons_append]

theorem keyAt_gap (w r : List Tok) (h : Gap w) : keyAt (w ++ r) = keyAt r := by
  unfold keyAt
  rw [skip_gap _ _ h]

theorem keyAt_other (t : Tok) (r : List Tok) (h1 : t.isWs = false) (h2 : ∀ k, t ≠ .bare k) : keyAt (t :: r) = none := by
  unfold keyAt
  rw [skip_cons _ _ h1]
  cases t <;> first | rfl | exact absurd rfl (h2 _)

theorem keyAt_bare (k : Str) (r r' : List Tok) (h : skip r = .colon :: r') : keyAt (.bare k :: r) = some (k, r') := by
  unfold keyAt
  rw [skip_cons _ _ rfl]
  simp only
  rw [h]

theorem keyAt_noColon (k : Str) (r : List Tok) (h : ¬ startsColon r) : keyAt (.bare k :: r) = none := by
  unfold keyAt
  rw [skip_cons _ _ rfl]
  simp only
  cases hs : skip r with
  | nil => rfl
  | cons t r' =>
    cases t <;> first | rfl | exact absurd ⟨_, hs⟩ h

/-- A value is not taken for a key. -/
theorem keyAt_val {tr bk : Bool} {v : Json.J} {u : List Tok} (h : Sloppy tr bk v u) (r : List Tok) (hr : ¬ startsColon r) : keyAt (u ++ r) = none := by
  cases v with
  | token t ht => rw [Sloppy] at h; subst h; exact keyAt_noColon _ _ hr
  | str x => rw [Sloppy] at h; obtain ⟨_, q, rfl⟩ := h; exact keyAt_other _ _ rfl (by simp)
  | arr l => rw [Sloppy] at h; obtain ⟨b, rfl, _⟩ := h; exact keyAt_other _ _ rfl (by simp)
  | obj l => rw [Sloppy] at h; obtain ⟨b, rfl, _⟩ := h; exact keyAt_other _ _ rfl (by simp)

theorem not_startsColon (w : List Tok) (t : Tok) (r : List Tok) (hw : Gap w) (h1 : t.isWs = false) (h2 : t ≠ .colon) : ¬ startsColon (w ++ t :: r) := by
  rintro ⟨x, hx⟩
  rw [skip_gap _ _ hw, skip_cons _ _ h1] at hx
  exact h2 (List.cons.inj hx).1

theorem keyAt_items {tr bk : Bool} {l : List Json.J} {b : List Tok} (h : SItems tr bk l b) (q : Bool) (r : List Tok) :
    keyAt (b ++ .closing q :: r) = none := by
  cases l with
  | nil =>
    rw [SItems] at h
    rw [keyAt_gap _ _ h]
    exact keyAt_other _ _ rfl (by simp)
  | cons v l =>
    rw [SItems] at h
    obtain ⟨w, u, w', hw, hu, hw', h⟩ := h
    rcases h with ⟨_, rfl⟩ | ⟨_, y, _, rfl⟩
    · simp only [List.append_assoc]
      rw [keyAt_gap _ _ hw]
      exact keyAt_val hu _ (not_startsColon w' _ _ hw' rfl (by simp))
    · simp only [List.append_assoc, List.cons_append]
      rw [keyAt_gap _ _ hw]
      exact keyAt_val hu _ (not_startsColon w' _ _ hw' rfl (by simp))

mutual
/-- Putting quotes around bare keys. -/
theorem qb_val : ∀ (v : Json.J) (u : List Tok), Sloppy false true v u → Normed u →
    ∃ u2, Sloppy false false v u2 ∧ Normed u2 ∧ ∀ r, qb (u ++ r) = u2 ++ qb r
  | .token t ht, u, h, hn => by
    refine ⟨u, by rw [Sloppy] at h ⊢; exact h, hn, fun r => ?_⟩
    rw [Sloppy] at h; subst h; exact qb_plain _ _ rfl
  | .str x, u, h, hn => by
    refine ⟨u, by rw [Sloppy] at h ⊢; exact h, hn, fun r => ?_⟩
    rw [Sloppy] at h; obtain ⟨_, q, rfl⟩ := h; exact qb_plain _ _ rfl
  | .arr l, u, h, hn => by
    rw [Sloppy] at h
    obtain ⟨b, rfl, hb⟩ := h
    obtain ⟨b2, hb2, hn2, he⟩ := qb_items l b hb (normed_append.1 (normed_cons.1 hn).2).1
    refine ⟨.opening true :: (b2 ++ [.closing true]), by rw [Sloppy]; exact ⟨b2, rfl, hb2⟩, ?_, fun r => ?_⟩
    · exact normed_cons.2 ⟨rfl, normed_append.2 ⟨hn2, normed_cons.2 ⟨rfl, normed_nil⟩⟩⟩
    · simp only [List.cons_append, List.append_assoc, List.nil_append]
      rw [qb_plain _ _ rfl, he]
  | .obj l, u, h, hn => by
    rw [Sloppy] at h
    obtain ⟨b, rfl, hb⟩ := h
    obtain ⟨b2, hb2, hn2, he⟩ := qb_fields l b hb (normed_append.1 (normed_cons.1 hn).2).1
    refine ⟨.opening false :: (b2 ++ [.closing false]), by rw [Sloppy]; exact ⟨b2, rfl, hb2⟩, ?_, fun r => ?_⟩
    · exact normed_cons.2 ⟨rfl, normed_append.2 ⟨hn2, normed_cons.2 ⟨rfl, normed_nil⟩⟩⟩
    · simp only [List.cons_append, List.append_assoc, List.nil_append]
      rw [he _ _ _ rfl]
theorem qb_items : ∀ (l : List Json.J) (b : List Tok), SItems false true l b → Normed b →
    ∃ b2, SItems false false l b2 ∧ Normed b2 ∧ ∀ q r, qb (b ++ .closing q :: r) = b2 ++ .closing q :: qb r
  | [], b, h, hn => by
    rw [SItems] at h
    exact ⟨b, by rw [SItems]; exact h, hn, fun q r => by rw [qb_gap _ _ h, qb_plain _ _ rfl]⟩
  | v :: l, b, h, hn => by
    rw [SItems] at h
    obtain ⟨w, u, w', hw, hu, hw', h⟩ := h
    rcases h with ⟨rfl, rfl⟩ | ⟨hl, r0, hr, rfl⟩
    · have n1 := normed_append.1 hn
      have n2 := normed_append.1 n1.2
      obtain ⟨u2, hu2, hn2, he2⟩ := qb_val v u hu n2.1
      refine ⟨w ++ (u2 ++ w'), ?_, normed_append.2 ⟨n1.1, normed_append.2 ⟨hn2, n2.2⟩⟩, fun q r => ?_⟩
      · rw [SItems]; exact ⟨w, u2, w', hw, hu2, hw', Or.inl ⟨rfl, rfl⟩⟩
      · simp only [List.append_assoc]
        rw [qb_gap _ _ hw, he2, qb_gap _ _ hw', qb_plain _ _ rfl]
    · have n1 := normed_append.1 hn
      have n2 := normed_append.1 n1.2
      have n3 := normed_append.1 n2.2
      have n4 := (normed_cons.1 n3.2).2
      obtain ⟨u2, hu2, hn2, he2⟩ := qb_val v u hu n2.1
      obtain ⟨b2, hb2, hnb, heb⟩ := qb_items l r0 hr n4
      refine ⟨w ++ (u2 ++ (w' ++ .comma :: b2)), ?_,
        normed_append.2 ⟨n1.1, normed_append.2 ⟨hn2, normed_append.2 ⟨n3.1, normed_cons.2 ⟨rfl, hnb⟩⟩⟩⟩, fun q r => ?_⟩
      · rw [SItems]; exact ⟨w, u2, w', hw, hu2, hw', Or.inr ⟨hl, b2, hb2, rfl⟩⟩
      · simp only [List.append_assoc, List.cons_append]
        rw [qb_gap _ _ hw, he2, qb_gap _ _ hw', qb_none _ _ (keyAt_items hr _ _), heb]
theorem qb_fields : ∀ (l : List (Str × Json.J)) (b : List Tok), SFields false true l b → Normed b →
    ∃ b2, SFields false false l b2 ∧ Normed b2 ∧ ∀ t q r, t.trigger = true → qb (t :: (b ++ .closing q :: r)) = t :: (b2 ++ .closing q :: qb r)
  | [], b, h, hn => by
    rw [SFields] at h
    refine ⟨b, by rw [SFields]; exact h, hn, fun t q r ht => ?_⟩
    rw [qb_none _ _ (by rw [keyAt_gap _ _ h]; exact keyAt_other _ _ rfl (by simp)), qb_gap _ _ h, qb_plain _ _ rfl]
  | (k, v) :: l, b, h, hn => by
    rw [SFields] at h
    obtain ⟨w, t, w1, w2, u, w', hw, hk, hw1, hw2, hu, hw', h⟩ := h
    rcases h with ⟨rfl, rfl⟩ | ⟨hl, r0, hr, rfl⟩
    · have n1 := normed_append.1 hn
      have n2 := normed_cons.1 n1.2
      have n3 := normed_append.1 n2.2
      have n4 := normed_append.1 (normed_cons.1 n3.2).2
      have n5 := normed_append.1 n4.2
      obtain ⟨u2, hu2, hn2, he2⟩ := qb_val v u hu n5.1
      rcases hk with ⟨hp, ⟨q0, rfl⟩ | ⟨_, rfl⟩⟩
      · refine ⟨w ++ .str q0 k :: (w1 ++ .colon :: (w2 ++ (u2 ++ w'))), ?_, ?_, fun t q r ht => ?_⟩
        · rw [SFields]; exact ⟨w, _, w1, w2, u2, w', hw, ⟨hp, Or.inl ⟨q0, rfl⟩⟩, hw1, hw2, hu2, hw', Or.inl ⟨rfl, rfl⟩⟩
        · exact normed_append.2 ⟨n1.1, normed_cons.2 ⟨n2.1, normed_append.2 ⟨n3.1, normed_cons.2 ⟨rfl, normed_append.2 ⟨n4.1,
            normed_append.2 ⟨hn2, n5.2⟩⟩⟩⟩⟩⟩
        · simp only [List.append_assoc, List.cons_append]
          rw [qb_none _ _ (by rw [keyAt_gap _ _ hw]; exact keyAt_other _ _ rfl (by simp)), qb_gap _ _ hw, qb_plain _ _ rfl, qb_gap _ _ hw1,
            qb_plain _ _ rfl, qb_gap _ _ hw2, he2, qb_gap _ _ hw', qb_plain _ _ rfl]
      · refine ⟨.str true k :: .colon :: (w2 ++ (u2 ++ w')), ?_, ?_, fun t q r ht => ?_⟩
        · rw [SFields]
          exact ⟨[], _, [], w2, u2, w', gap_nil, ⟨hp, Or.inl ⟨true, rfl⟩⟩, gap_nil, hw2, hu2, hw', Or.inl ⟨rfl, rfl⟩⟩
        · exact normed_cons.2 ⟨rfl, normed_cons.2 ⟨rfl, normed_append.2 ⟨n4.1, normed_append.2 ⟨hn2, n5.2⟩⟩⟩⟩
        · simp only [List.append_assoc, List.cons_append]
          rw [qb_some t _ k (w2 ++ (u ++ (w' ++ .closing q :: r))) ht
            (by rw [keyAt_gap _ _ hw]; exact keyAt_bare _ _ _ (by rw [skip_gap _ _ hw1]; rfl)), qb_gap _ _ hw2, he2, qb_gap _ _ hw', qb_plain _ _ rfl]
    · have n1 := normed_append.1 hn
      have n2 := normed_cons.1 n1.2
      have n3 := normed_append.1 n2.2
      have n4 := normed_append.1 (normed_cons.1 n3.2).2
      have n5 := normed_append.1 n4.2
      have n6 := normed_append.1 n5.2
      obtain ⟨u2, hu2, hn2, he2⟩ := qb_val v u hu n5.1
      obtain ⟨b2, hb2, hnb, heb⟩ := qb_fields l r0 hr (normed_cons.1 n6.2).2
      rcases hk with ⟨hp, ⟨q0, rfl⟩ | ⟨_, rfl⟩⟩
      · refine ⟨w ++ .str q0 k :: (w1 ++ .colon :: (w2 ++ (u2 ++ (w' ++ .comma :: b2)))), ?_, ?_, fun t q r ht => ?_⟩
        · rw [SFields]; exact ⟨w, _, w1, w2, u2, w', hw, ⟨hp, Or.inl ⟨q0, rfl⟩⟩, hw1, hw2, hu2, hw', Or.inr ⟨hl, b2, hb2, rfl⟩⟩
        · exact normed_append.2 ⟨n1.1, normed_cons.2 ⟨n2.1, normed_append.2 ⟨n3.1, normed_cons.2 ⟨rfl, normed_append.2 ⟨n4.1,
            normed_append.2 ⟨hn2, normed_append.2 ⟨n6.1, normed_cons.2 ⟨rfl, hnb⟩⟩⟩⟩⟩⟩⟩⟩
        · simp only [List.append_assoc, List.cons_append]
          rw [qb_none _ _ (by rw [keyAt_gap _ _ hw]; exact keyAt_other _ _ rfl (by simp)), qb_gap _ _ hw, qb_plain _ _ rfl, qb_gap _ _ hw1,
            qb_plain _ _ rfl, qb_gap _ _ hw2, he2, qb_gap _ _ hw', heb _ _ _ rfl]
      · refine ⟨.str true k :: .colon :: (w2 ++ (u2 ++ (w' ++ .comma :: b2))), ?_, ?_, fun t q r ht => ?_⟩
        · rw [SFields]
          exact ⟨[], _, [], w2, u2, w', gap_nil, ⟨hp, Or.inl ⟨true, rfl⟩⟩, gap_nil, hw2, hu2, hw', Or.inr ⟨hl, b2, hb2, rfl⟩⟩
        · exact normed_cons.2 ⟨rfl, normed_cons.2 ⟨rfl, normed_append.2 ⟨n4.1, normed_append.2 ⟨hn2, normed_append.2 ⟨n6.1, normed_cons.2 ⟨rfl, hnb⟩⟩⟩⟩⟩⟩
        · simp only [List.append_assoc, List.cons_append]
          rw [qb_some t _ k (w2 ++ (u ++ (w' ++ .comma :: (r0 ++ .closing q :: r)))) ht
            (by rw [keyAt_gap _ _ hw]; exact keyAt_bare _ _ _ (by rw [skip_gap _ _ hw1]; rfl)), qb_gap _ _ hw2, he2, qb_gap _ _ hw', heb _ _ _ rfl]
end

/-! ## The repaired document -/

theorem mem_normed_gap {w : List Tok} (hw : Gap w) (hn : Normed w) : Json.AllWs (text w) := by
  intro c hc
  obtain ⟨t, ht, hc⟩ := List.mem_flatMap.1 hc
  have h1 := hw t ht
  have h2 := hn t ht
  cases t with
  | ws s =>
    rw [Tok.norm] at h2
    rw [← h2] at hc
    simp [Tok.text] at hc
    exact Or.inl hc
  | _ => cases h1

theorem chars_plain {s : Str} (h : Plain s) (hq : '"' ∉ s) : Json.Chars s s := by
  induction s with
  | nil => exact .nil
  | cons c s ih =>
    have hc := h c List.mem_cons_self
    exact .cons [c] c s s (.plain c hc.1 (fun e => hq (by rw [e]; exact List.mem_cons_self)) hc.2)
      (ih (fun d hd => h d (List.mem_cons_of_mem _ hd)) (fun hm => hq (List.mem_cons_of_mem _ hm)))

theorem quoted_plain {s : Str} (h : Plain s) (hq : '"' ∉ s) : Json.Quoted s ('"' :: (s ++ ['"'])) := ⟨s, chars_plain h hq, rfl⟩

theorem good_append {a b : List Tok} (h : ∀ t ∈ a ++ b, t.Good) : (∀ t ∈ a, t.Good) ∧ ∀ t ∈ b, t.Good :=
  ⟨fun t ht => h t (List.mem_append_left _ ht), fun t ht => h t (List.mem_append_right _ ht)⟩

theorem good_cons {t : Tok} {b : List Tok} (h : ∀ x ∈ t :: b, x.Good) : t.Good ∧ ∀ t ∈ b, t.Good :=
  ⟨h t List.mem_cons_self, fun x hx => h x (List.mem_cons_of_mem _ hx)⟩

theorem str_double {q : Bool} {s : Str} (h : (Tok.str q s).norm = .str q s) : q = true := by
  rw [Tok.norm] at h
  cases h
  rfl

mutual
/-- Repaired tokens are a JSON document. -/
theorem doc_val : ∀ (v : Json.J) (u : List Tok), Sloppy false false v u → Normed u → (∀ t ∈ u, t.Good) → Json.Doc v (text u)
  | .token t ht, u, h, hn, hg => by
    rw [Sloppy] at h; subst h
    rw [Json.Doc, text_cons, text_nil, List.append_nil]; rfl
  | .str x, u, h, hn, hg => by
    rw [Sloppy] at h
    obtain ⟨hp, q, rfl⟩ := h
    have := str_double (hn _ List.mem_cons_self)
    subst this
    rw [Json.Doc, text_cons, text_nil, List.append_nil]
    exact quoted_plain hp (hg _ List.mem_cons_self).quotes.2
  | .arr l, u, h, hn, hg => by
    rw [Sloppy] at h
    obtain ⟨b, rfl, hb⟩ := h
    rw [Json.Doc]
    refine ⟨text b, ?_, doc_items l b hb (normed_append.1 (normed_cons.1 hn).2).1 (good_append (good_cons hg).2).1⟩
    rw [text_cons, text_append]; rfl
  | .obj l, u, h, hn, hg => by
    rw [Sloppy] at h
    obtain ⟨b, rfl, hb⟩ := h
    rw [Json.Doc]
    refine ⟨text b, ?_, doc_fields l b hb (normed_append.1 (normed_cons.1 hn).2).1 (good_append (good_cons hg).2).1⟩
    rw [text_cons, text_append]; rfl
theorem doc_items : ∀ (l : List Json.J) (b : List Tok), SItems false false l b → Normed b → (∀ t ∈ b, t.Good) → Json.Items l (text b)
  | [], b, h, hn, hg => by
    rw [SItems] at h
    rw [Json.Items]
    exact mem_normed_gap h hn
  | v :: l, b, h, hn, hg => by
    rw [SItems] at h
    obtain ⟨w, u, w', hw, hu, hw', h⟩ := h
    rw [Json.Items]
    rcases h with ⟨rfl, rfl⟩ | ⟨hl, r0, hr, rfl⟩
    · have n1 := normed_append.1 hn
      have n2 := normed_append.1 n1.2
      have g1 := good_append hg
      have g2 := good_append g1.2
      refine ⟨text w, text u, text w', mem_normed_gap hw n1.1, doc_val v u hu n2.1 g2.1, mem_normed_gap hw' n2.2, Or.inl ⟨rfl, ?_⟩⟩
      rw [text_append, text_append]
    · have n1 := normed_append.1 hn
      have n2 := normed_append.1 n1.2
      have n3 := normed_append.1 n2.2
      have n4 := normed_cons.1 n3.2
      have g1 := good_append hg
      have g2 := good_append g1.2
      have g3 := good_append g2.2
      have g4 := good_cons g3.2
      refine ⟨text w, text u, text w', mem_normed_gap hw n1.1, doc_val v u hu n2.1 g2.1, mem_normed_gap hw' n3.1, Or.inr ⟨?_, text r0,
        doc_items l r0 hr n4.2 g4.2, ?_⟩⟩
      · rcases hl with h | h
        · exact h
        · cases h
      · rw [text_append, text_append, text_append, text_cons]; rfl
theorem doc_fields : ∀ (l : List (Str × Json.J)) (b : List Tok), SFields false false l b → Normed b → (∀ t ∈ b, t.Good) → Json.Fields l (text b)
  | [], b, h, hn, hg => by
    rw [SFields] at h
    rw [Json.Fields]
    exact mem_normed_gap h hn
  | (k, v) :: l, b, h, hn, hg => by
    rw [SFields] at h
    obtain ⟨w, t, w1, w2, u, w', hw, hk, hw1, hw2, hu, hw', h⟩ := h
    rw [Json.Fields]
    rcases hk with ⟨hp, ⟨q0, rfl⟩ | ⟨hb, _⟩⟩
    · rcases h with ⟨rfl, rfl⟩ | ⟨hl, r0, hr, rfl⟩
      · have n1 := normed_append.1 hn
        have n2 := normed_cons.1 n1.2
        have n3 := normed_append.1 n2.2
        have n4 := normed_append.1 (normed_cons.1 n3.2).2
        have n5 := normed_append.1 n4.2
        have g1 := good_append hg
        have g2 := good_cons g1.2
        have g3 := good_append g2.2
        have g4 := good_append (good_cons g3.2).2
        have g5 := good_append g4.2
        have := str_double n2.1
        subst this
        refine ⟨text w, _, text w1, text w2, text u, text w', mem_normed_gap hw n1.1, quoted_plain hp g2.1.quotes.2, mem_normed_gap hw1 n3.1,
          mem_normed_gap hw2 n4.1, doc_val v u hu n5.1 g5.1, mem_normed_gap hw' n5.2, Or.inl ⟨rfl, ?_⟩⟩
        simp only [text_append, text_cons, Tok.text, List.append_assoc, List.cons_append, List.nil_append]
      · have n1 := normed_append.1 hn
        have n2 := normed_cons.1 n1.2
        have n3 := normed_append.1 n2.2
        have n4 := normed_append.1 (normed_cons.1 n3.2).2
        have n5 := normed_append.1 n4.2
        have n6 := normed_append.1 n5.2
        have g1 := good_append hg
        have g2 := good_cons g1.2
        have g3 := good_append g2.2
        have g4 := good_append (good_cons g3.2).2
        have g5 := good_append g4.2
        have g6 := good_append g5.2
        have := str_double n2.1
        subst this
        refine ⟨text w, _, text w1, text w2, text u, text w', mem_normed_gap hw n1.1, quoted_plain hp g2.1.quotes.2, mem_normed_gap hw1 n3.1,
          mem_normed_gap hw2 n4.1, doc_val v u hu n5.1 g5.1, mem_normed_gap hw' n6.1, Or.inr ⟨?_, text r0,
          doc_fields l r0 hr (normed_cons.1 n6.2).2 (good_cons g6.2).2, ?_⟩⟩
        · rcases hl with h | h
          · exact h
          · cases h
        · simp only [text_append, text_cons, Tok.text, List.append_assoc, List.cons_append, List.nil_append]
    · cases hb
end

theorem sloppy_last {tr bk : Bool} {v : Json.J} {u : List Tok} (h : Sloppy tr bk v u) : ∃ r t, u = r ++ [t] ∧ t.isWs = false := by
  cases v with
  | token t ht => rw [Sloppy] at h; subst h; exact ⟨[], _, rfl, rfl⟩
  | str x => rw [Sloppy] at h; obtain ⟨_, q, rfl⟩ := h; exact ⟨[], _, rfl, rfl⟩
  | arr l => rw [Sloppy] at h; obtain ⟨b, rfl, _⟩ := h; exact ⟨.opening true :: b, _, rfl, rfl⟩
  | obj l => rw [Sloppy] at h; obtain ⟨b, rfl, _⟩ := h; exact ⟨.opening false :: b, _, rfl, rfl⟩

theorem gap_reverse {w : List Tok} (h : Gap w) : Gap w.reverse := fun t ht => h t (List.mem_reverse.1 ht)

/-- Trimming takes the white space away from both ends. -/
theorem trim_gap {w w' u : List Tok} (hw : Gap w) (hw' : Gap w') (h1 : ∃ t r, u = t :: r ∧ t.isWs = false) (h2 : ∃ r t, u = r ++ [t] ∧ t.isWs = false) :
    trim (w ++ (u ++ w')) = u := by
  unfold trim
  rw [skip_gap _ _ hw]
  obtain ⟨t, r, rfl, ht⟩ := h1
  rw [List.cons_append, skip_cons _ _ ht, ← List.cons_append, List.reverse_append, skip_gap _ _ (gap_reverse hw')]
  obtain ⟨r', t', e, ht'⟩ := h2
  rw [e, List.reverse_append, List.reverse_cons, List.reverse_nil, List.nil_append, List.cons_append, skip_cons _ _ ht']
  simp

/-- The tokens repaired. -/
theorem repair_doc {v : Json.J} {w u w' : List Tok} (hw : Gap w) (hu : Sloppy true true v u) (hw' : Gap w') (hg : ∀ t ∈ w ++ (u ++ w'), t.Good) :
    ∃ u2, Sloppy false false v u2 ∧ Normed u2 ∧ (∀ t ∈ u2, t.Good) ∧ repair (w ++ (u ++ w')) = u2 := by
  obtain ⟨u1, hu1, hm1, he1⟩ := nt_val v _ (sloppy_norm v u hu)
  have hn1 : Normed u1 := fun t ht => normed_map u t (hm1 t ht)
  obtain ⟨u2, hu2, hn2, he2⟩ := qb_val v u1 hu1 hn1
  have e1 : noTrailing false ((w ++ (u ++ w')).map Tok.norm) = w.map Tok.norm ++ (u1 ++ w'.map Tok.norm) := by
    rw [List.map_append, List.map_append, nt_gap _ _ (gap_norm hw), he1]
    have := nt_gap (w'.map Tok.norm) [] (gap_norm hw')
    rw [List.append_nil] at this
    rw [this]
    simp [noTrailing]
  have e2 : qb (w.map Tok.norm ++ (u1 ++ w'.map Tok.norm)) = w.map Tok.norm ++ (u2 ++ w'.map Tok.norm) := by
    rw [qb_gap _ _ (gap_norm hw), he2]
    have := qb_gap (w'.map Tok.norm) [] (gap_norm hw')
    rw [List.append_nil] at this
    rw [this]
    simp [qb, quoteBare]
  have e3 : repair (w ++ (u ++ w')) = u2 := by
    unfold repair
    have : quoteBare (noTrailing false ((w ++ (u ++ w')).map Tok.norm)).length (noTrailing false ((w ++ (u ++ w')).map Tok.norm)) =
      qb (noTrailing false ((w ++ (u ++ w')).map Tok.norm)) := rfl
    rw [this, e1, e2]
    obtain ⟨t, r, h1, h2, _⟩ := sloppy_head hu2
    exact trim_gap (gap_norm hw) (gap_norm hw') ⟨t, r, h1, h2⟩ (sloppy_last hu2)
  refine ⟨u2, hu2, hn2, ?_, e3⟩
  have g0 : ∀ t ∈ noTrailing false ((w ++ (u ++ w')).map Tok.norm), t.Good := by
    intro t ht
    obtain ⟨x, hx, rfl⟩ := List.mem_map.1 (noTrailing_mem _ _ t ht)
    exact good_norm x (hg x hx)
  have g1 := good_quoteBare (noTrailing false ((w ++ (u ++ w')).map Tok.norm)).length _ g0
  intro t ht
  apply g1 t
  have : quoteBare (noTrailing false ((w ++ (u ++ w')).map Tok.norm)).length (noTrailing false ((w ++ (u ++ w')).map Tok.norm)) =
      qb (noTrailing false ((w ++ (u ++ w')).map Tok.norm)) := rfl
  rw [this, e1, e2]
  simp [ht]

theorem repair_loads {v : Json.J} {w u w' : List Tok} (hw : Gap w) (hu : Sloppy true true v u) (hw' : Gap w') (hg : ∀ t ∈ w ++ (u ++ w'), t.Good) :
    Json.loads (text (repair (w ++ (u ++ w')))) = some v := by
  obtain ⟨u2, h1, h2, h3, e⟩ := repair_doc hw hu hw' hg
  rw [e, Json.C218_grammar]
  exact ⟨[], text u2, [], Json.allWs_nil, doc_val v u2 h1 h2 h3, Json.allWs_nil, by simp⟩

/-! ## Reading sloppy text directly -/

/-- White space for `\\s` that is not JSON white space. -/
def OddWs (c : Char) : Prop := White c ∧ Json.isWs c = false

theorem tokChar_range {c : Char} (h : Json.tokChar c = true) : 43 ≤ c.toNat ∧ c.toNat ≤ 122 := by
  simp only [Json.tokChar, Bool.or_eq_true, decide_eq_true_eq] at h
  rcases h with (((h | h) | h) | h) | h
  · simp only [Char.isDigit, Bool.and_eq_true, decide_eq_true_eq, ge_iff_le, UInt32.le_iff_toNat_le] at h
    have h1 : c.toNat = c.val.toNat := rfl
    have h2 : '0'.val.toNat = 48 := rfl
    have h3 : '9'.val.toNat = 57 := rfl
    omega
  · simp only [Char.isAlpha, Char.isUpper, Char.isLower, Bool.or_eq_true, Bool.and_eq_true, decide_eq_true_eq, ge_iff_le, UInt32.le_iff_toNat_le] at h
    have h1 : c.toNat = c.val.toNat := rfl
    have h2 : 'A'.val.toNat = 65 := rfl
    have h3 : 'Z'.val.toNat = 90 := rfl
    have h4 : 'a'.val.toNat = 97 := rfl
    have h5 : 'z'.val.toNat = 122 := rfl
    omega
  · subst h; decide
  · subst h; decide
  · subst h; decide

theorem white_tokChar {c : Char} (h : White c) : Json.tokChar c = false := by
  cases e : Json.tokChar c with
  | false => rfl
  | true =>
    have := tokChar_range e
    simp only [White, Py.White] at h
    omega

theorem odd_plain {c : Char} (h : OddWs c) : Json.isWs c = false ∧ Json.tokChar c = false := ⟨h.2, white_tokChar h.1⟩

theorem odd_ne {c d : Char} (h : OddWs c) (hd : ¬ White d) : c ≠ d := by
  rintro rfl
  exact hd h.1

theorem white_split (s : Str) (h : ∀ c ∈ s, White c) : Json.AllWs s ∨ ∃ a c b, s = a ++ c :: b ∧ Json.AllWs a ∧ OddWs c := by
  induction s with
  | nil => exact Or.inl Json.allWs_nil
  | cons c s ih =>
    have hc := h c List.mem_cons_self
    have key : (c = ' ' ∨ c = '\n' ∨ c = '\t' ∨ c = '\r') ∨ OddWs c := by
      cases e : Json.isWs c with
      | true =>
        left
        simpa only [Json.isWs, Bool.or_eq_true, decide_eq_true_eq, or_assoc] using e
      | false => exact Or.inr ⟨hc, e⟩
    rcases key with hw | ho
    · rcases ih (fun d hd => h d (List.mem_cons_of_mem _ hd)) with h1 | ⟨a, d, b, e, ha, hd⟩
      · left
        intro d hd
        rcases List.mem_cons.1 hd with rfl | hd
        · exact hw
        · exact h1 d hd
      · right
        refine ⟨c :: a, d, b, by rw [e]; rfl, ?_, hd⟩
        intro x hx
        rcases List.mem_cons.1 hx with rfl | hx
        · exact hw
        · exact ha x hx
    · exact Or.inr ⟨[], c, s, rfl, Json.allWs_nil, ho⟩

theorem readTok_none (c : Char) (s : Str) (h : Json.tokChar c = false) : Json.readTok (c :: s) = none := by
  unfold Json.readTok
  rw [dif_neg]
  simp [h, Json.isToken]

/-- A text that does not begin like a value. -/
theorem readVal_bad (n : Nat) (c : Char) (s : Str) (h0 : Json.isWs c = false) (h1 : c ≠ '"') (h2 : c ≠ '[') (h3 : c ≠ '{') (h4 : Json.tokChar c = false) :
    Json.readVal n (c :: s) = none := by
  cases n with
  | zero => rfl
  | succ n =>
    rw [Json.readVal, Json.expect_other _ _ _ h0 h1, Json.expect_other _ _ _ h0 h2, Json.expect_other _ _ _ h0 h3, Json.skipWs_cons _ _ h0]
    exact readTok_none c s h4

theorem readVal_ws (n : Nat) (w s : Str) (h : Json.AllWs w) : Json.readVal n (w ++ s) = Json.readVal n s := by
  cases n with
  | zero => rfl
  | succ n => rw [Json.readVal, Json.readVal, Json.expect_ws _ _ _ h, Json.expect_ws _ _ _ h, Json.expect_ws _ _ _ h, Json.skipWs_ws _ _ h]

theorem readVal_nil (n : Nat) : Json.readVal n [] = none := by
  cases n with
  | zero => rfl
  | succ n =>
    have h : Json.readTok (Json.skipWs []) = none := by
      unfold Json.readTok
      rw [dif_neg]
      decide
    rw [Json.readVal, show Json.expect '"' [] = none from rfl, show Json.expect '[' [] = none from rfl, show Json.expect '{' [] = none from rfl]
    exact h

/-- White space before a value. -/
theorem readVal_white (n : Nat) (w s : Str) (h : ∀ c ∈ w, White c) : Json.readVal n (w ++ s) = none ∨ Json.readVal n (w ++ s) = Json.readVal n s := by
  rcases white_split w h with hw | ⟨a, c, b, rfl, ha, hc⟩
  · exact Or.inr (readVal_ws n w s hw)
  · left
    rw [List.append_assoc, readVal_ws n a _ ha, List.cons_append]
    have := odd_plain hc
    exact readVal_bad n c _ this.1 (odd_ne hc (by decide)) (odd_ne hc (by decide)) (odd_ne hc (by decide)) this.2

theorem expect_white (d : Char) (w s : Str) (h : ∀ c ∈ w, White c) (hd : ¬ White d) :
    Json.expect d (w ++ s) = none ∨ Json.expect d (w ++ s) = Json.expect d s := by
  rcases white_split w h with hw | ⟨a, c, b, rfl, ha, hc⟩
  · exact Or.inr (Json.expect_ws d w s hw)
  · left
    rw [List.append_assoc, Json.expect_ws d a _ ha, List.cons_append]
    refine Json.expect_other d c _ (odd_plain hc).1 ?_
    rintro rfl
    exact hd hc.1

theorem expect_only_white (d : Char) (w : Str) (h : ∀ c ∈ w, White c) (hd : ¬ White d) : Json.expect d w = none := by
  have := expect_white d w [] h hd
  rw [List.append_nil] at this
  rcases this with h | h
  · exact h
  · rw [h]; rfl

theorem readVal_only_white (n : Nat) (w : Str) (h : ∀ c ∈ w, White c) : Json.readVal n w = none := by
  have := readVal_white n w [] h
  rw [List.append_nil] at this
  rcases this with h | h
  · exact h
  · rw [h]; exact readVal_nil n

theorem gap_text {w : List Tok} (h : Gap w) (hg : ∀ t ∈ w, t.Good) : ∀ c ∈ text w, White c := by
  intro c hc
  obtain ⟨t, ht, hc⟩ := List.mem_flatMap.1 hc
  have h1 := h t ht
  have h2 := hg t ht
  cases t with
  | ws s => exact h2.2 c hc
  | _ => cases h1

theorem delim_white (w x : Str) (h : ∀ c ∈ w, White c) (hx : Json.Delim x) : Json.Delim (w ++ x) := by
  cases w with
  | nil => exact hx
  | cons c w => exact Json.delim_cons _ _ (white_tokChar (h c List.mem_cons_self))

/-- The first character of a value. -/
theorem sloppy_char {tr bk : Bool} {v : Json.J} {u : List Tok} (h : Sloppy tr bk v u) :
    ∃ c s, text u = c :: s ∧ Json.isWs c = false ∧ c ≠ ']' ∧ c ≠ '}' := by
  cases v with
  | token t ht =>
    rw [Sloppy] at h; subst h
    obtain ⟨hne, hc⟩ := Json.token_chars ht
    rw [text_cons, text_nil, List.append_nil]
    cases t with
    | nil => exact absurd rfl hne
    | cons c t =>
      have := Json.tokChar_plain c (hc c List.mem_cons_self)
      exact ⟨c, t, rfl, this.1, this.2.2.2.2.1, this.2.2.2.2.2.1⟩
  | str x =>
    rw [Sloppy] at h; obtain ⟨_, q, rfl⟩ := h
    cases q <;> exact ⟨_, _, rfl, by decide, by decide, by decide⟩
  | arr l => rw [Sloppy] at h; obtain ⟨b, rfl, _⟩ := h; exact ⟨_, _, rfl, by decide, by decide, by decide⟩
  | obj l => rw [Sloppy] at h; obtain ⟨b, rfl, _⟩ := h; exact ⟨_, _, rfl, by decide, by decide, by decide⟩

theorem key_char {bk : Bool} {k : Str} {t : Tok} (h : KeyTok bk k t) (hg : t.Good) :
    ∃ c s, t.text = c :: s ∧ Json.isWs c = false ∧ c ≠ '}' ∧ (c = '"' → t = .str true k) := by
  rcases h.2 with ⟨q, rfl⟩ | ⟨_, rfl⟩
  · cases q
    · exact ⟨_, _, rfl, by decide, by decide, fun h => absurd h (by decide)⟩
    · exact ⟨_, _, rfl, by decide, by decide, fun _ => rfl⟩
  · obtain ⟨hne, hc⟩ := hg
    cases k with
    | nil => exact absurd rfl hne
    | cons c k =>
      obtain ⟨h1, h2, h3, h4, h5, h6, h7, h8, h9⟩ := hc c List.mem_cons_self
      refine ⟨c, k, rfl, ?_, h7, fun e => absurd e h3⟩
      cases hw : Json.isWs c with
      | false => rfl
      | true =>
        refine absurd ?_ h1
        rcases (Json.isWs_iff c).1 hw with rfl | rfl | rfl | rfl <;> decide

theorem readVal_open (n : Nat) (s : Str) : Json.readVal n ('[' :: s) = none ∨ ∃ m, n = m + 1 ∧ Json.readVal n ('[' :: s) = Json.readArr m s := by
  cases n with
  | zero => exact Or.inl rfl
  | succ n =>
    right
    refine ⟨n, rfl, ?_⟩
    rw [Json.readVal, Json.expect_other _ _ _ (by decide) (by decide), Json.expect_same _ _ (by decide)]

theorem readVal_brace (n : Nat) (s : Str) : Json.readVal n ('{' :: s) = none ∨ ∃ m, n = m + 1 ∧ Json.readVal n ('{' :: s) = Json.readObj m s := by
  cases n with
  | zero => exact Or.inl rfl
  | succ n =>
    right
    refine ⟨n, rfl, ?_⟩
    rw [Json.readVal, Json.expect_other _ _ _ (by decide) (by decide), Json.expect_other _ _ _ (by decide) (by decide), Json.expect_same _ _ (by decide)]

/-- A value followed by something reads as that value or not at all. -/
def Reads {β : Type} (x : Option (β × Str)) (v : β) (r : Str) : Prop := x = none ∨ x = some (v, r)

theorem readItems_none (n : Nat) (s : Str) (h : ∀ m, Json.readVal m s = none) : Json.readItems n s = none := by
  cases n with
  | zero => rfl
  | succ n => rw [Json.readItems, h n]; rfl

theorem readFields_none (n : Nat) (s : Str) (h : Json.expect '"' s = none) : Json.readFields n s = none := by
  cases n with
  | zero => rfl
  | succ n => rw [Json.readFields, h]; rfl

mutual
theorem read_val {tr bk : Bool} : ∀ (v : Json.J) (u : List Tok), Sloppy tr bk v u → (∀ t ∈ u, t.Good) → ∀ (n : Nat) (r : Str), Json.Delim r →
    Reads (Json.readVal n (text u ++ r)) v r
  | .token t ht, u, h, hg, n, r, hr => by
    rw [Sloppy] at h; subst h
    cases n with
    | zero => exact Or.inl rfl
    | succ n =>
      right
      have := Json.readVal_doc (.token t ht) (n + 1) [] t r (by rw [Json.Doc]) Json.allWs_nil (by simp [Json.need]) hr
      rw [text_cons, text_nil, List.append_nil]
      exact this
  | .str x, u, h, hg, n, r, hr => by
    rw [Sloppy] at h
    obtain ⟨hp, q, rfl⟩ := h
    cases q with
    | false =>
      left
      exact readVal_bad n _ _ (by decide) (by decide) (by decide) (by decide) (by decide)
    | true =>
      cases n with
      | zero => exact Or.inl rfl
      | succ n =>
        right
        have := Json.readVal_doc (.str x) (n + 1) [] ('"' :: (x ++ ['"'])) r (by rw [Json.Doc]; exact quoted_plain hp (hg _ List.mem_cons_self).quotes.2)
          Json.allWs_nil (by simp [Json.need]) hr
        rw [text_cons, text_nil, List.append_nil]
        exact this
  | .arr l, u, h, hg, n, r, hr => by
    rw [Sloppy] at h
    obtain ⟨b, rfl, hb⟩ := h
    have gb := (good_append (good_cons hg).2).1
    have e : text (.opening true :: (b ++ [.closing true])) ++ r = '[' :: (text b ++ ']' :: r) := by
      rw [text_cons, text_append]; simp [text, Tok.text]
    rw [e]
    rcases readVal_open n (text b ++ ']' :: r) with h | ⟨m, rfl, h⟩
    · exact Or.inl h
    · unfold Reads
      rw [h]
      cases m with
      | zero => exact Or.inl rfl
      | succ m =>
        rw [Json.readArr]
        cases l with
        | nil =>
          rw [SItems] at hb
          have hw := gap_text hb gb
          rcases expect_white ']' (text b) (']' :: r) hw (by decide) with h1 | h1
          · rw [h1]
            left
            rw [readItems_none]; · rfl
            intro k
            rcases readVal_white k (text b) (']' :: r) hw with h2 | h2
            · exact h2
            · rw [h2]; exact readVal_bad k _ _ (by decide) (by decide) (by decide) (by decide) (by decide)
          · rw [h1, Json.expect_same _ _ (by decide)]
            exact Or.inr rfl
        | cons v l =>
          have hi := read_items (v :: l) b hb gb (by simp) m r
          have hx : Json.expect ']' (text b ++ ']' :: r) = none := by
            rw [SItems] at hb
            obtain ⟨w, u, w', hw, hu, hw', hb⟩ := hb
            obtain ⟨c, s, hc, c1, c2, c3⟩ := sloppy_char hu
            rcases hb with ⟨_, rfl⟩ | ⟨_, r0, _, rfl⟩ <;>
              · rw [text_append, List.append_assoc, text_append, hc]
                rcases expect_white ']' (text w) _ (gap_text hw (good_append gb).1) (by decide) with h1 | h1
                · exact h1
                · rw [h1]; exact Json.expect_other _ _ _ c1 c2
          rw [hx]
          rcases hi with h1 | h1
          · rw [h1]; exact Or.inl rfl
          · rw [h1]; exact Or.inr rfl
  | .obj l, u, h, hg, n, r, hr => by
    rw [Sloppy] at h
    obtain ⟨b, rfl, hb⟩ := h
    have gb := (good_append (good_cons hg).2).1
    have e : text (.opening false :: (b ++ [.closing false])) ++ r = '{' :: (text b ++ '}' :: r) := by
      rw [text_cons, text_append]; simp [text, Tok.text]
    rw [e]
    rcases readVal_brace n (text b ++ '}' :: r) with h | ⟨m, rfl, h⟩
    · exact Or.inl h
    · unfold Reads
      rw [h]
      cases m with
      | zero => exact Or.inl rfl
      | succ m =>
        rw [Json.readObj]
        cases l with
        | nil =>
          rw [SFields] at hb
          have hw := gap_text hb gb
          rcases expect_white '}' (text b) ('}' :: r) hw (by decide) with h1 | h1
          · rw [h1]
            left
            rw [readFields_none]; · rfl
            rcases expect_white '"' (text b) ('}' :: r) hw (by decide) with h2 | h2
            · exact h2
            · rw [h2]; exact Json.expect_other _ _ _ (by decide) (by decide)
          · rw [h1, Json.expect_same _ _ (by decide)]
            exact Or.inr rfl
        | cons kv l =>
          have hi := read_fields (kv :: l) b hb gb (by simp) m r
          obtain ⟨k, v⟩ := kv
          have hx : Json.expect '}' (text b ++ '}' :: r) = none := by
            rw [SFields] at hb
            obtain ⟨w, t, w1, w2, u, w', hw, hk, hw1, hw2, hu, hw', hb⟩ := hb
            rcases hb with ⟨_, rfl⟩ | ⟨_, r0, _, rfl⟩ <;>
              · obtain ⟨c, s, hc, c1, c2, c3⟩ := key_char hk (good_cons (good_append gb).2).1
                rw [text_append, List.append_assoc, text_cons, hc]
                rcases expect_white '}' (text w) _ (gap_text hw (good_append gb).1) (by decide) with h1 | h1
                · exact h1
                · rw [h1]; exact Json.expect_other _ _ _ c1 c2
          rw [hx]
          rcases hi with h1 | h1
          · rw [h1]; exact Or.inl rfl
          · rw [h1]; exact Or.inr rfl
theorem read_items {tr bk : Bool} : ∀ (l : List Json.J) (b : List Tok), SItems tr bk l b → (∀ t ∈ b, t.Good) → l ≠ [] → ∀ (n : Nat) (r : Str),
    Reads (Json.readItems n (text b ++ ']' :: r)) l r
  | [], b, h, hg, hl, n, r => absurd rfl hl
  | v :: l, b, h, hg, hl, n, r => by
    rw [SItems] at h
    obtain ⟨w, u, w', hw, hu, hw', h⟩ := h
    cases n with
    | zero => exact Or.inl rfl
    | succ n =>
      unfold Reads
      rw [Json.readItems]
      rcases h with ⟨rfl, rfl⟩ | ⟨hl, r0, hr0, rfl⟩
      · have g1 := good_append hg
        have g2 := good_append g1.2
        rw [text_append, text_append]
        simp only [List.append_assoc]
        have ww' := gap_text hw' g2.2
        have hd : Json.Delim (text w' ++ ']' :: r) := delim_white _ _ ww' (Json.delim_cons _ _ (by decide))
        rcases readVal_white n (text w) (text u ++ (text w' ++ ']' :: r)) (gap_text hw g1.1) with h1 | h1
        · rw [h1]; exact Or.inl rfl
        · rw [h1]
          rcases read_val v u hu g2.1 n _ hd with h2 | h2
          · rw [h2]; exact Or.inl rfl
          · rw [h2]
            simp only [Option.bind_some]
            have hc : Json.expect ',' (text w' ++ ']' :: r) = none := by
              rcases expect_white ',' (text w') (']' :: r) ww' (by decide) with h3 | h3
              · exact h3
              · rw [h3]; exact Json.expect_other _ _ _ (by decide) (by decide)
            rw [hc]
            simp only
            rcases expect_white ']' (text w') (']' :: r) ww' (by decide) with h3 | h3
            · rw [h3]; exact Or.inl rfl
            · rw [h3, Json.expect_same _ _ (by decide)]; exact Or.inr rfl
      · have g1 := good_append hg
        have g2 := good_append g1.2
        have g3 := good_append g2.2
        have g4 := good_cons g3.2
        rw [text_append, text_append, text_append, text_cons]
        simp only [List.append_assoc]
        have ww' := gap_text hw' g3.1
        have hd : Json.Delim (text w' ++ (Tok.comma.text ++ (text r0 ++ ']' :: r))) := delim_white _ _ ww' (Json.delim_cons _ _ (by decide))
        rcases readVal_white n (text w) (text u ++ (text w' ++ (Tok.comma.text ++ (text r0 ++ ']' :: r)))) (gap_text hw g1.1) with h1 | h1
        · rw [h1]; exact Or.inl rfl
        · rw [h1]
          rcases read_val v u hu g2.1 n _ hd with h2 | h2
          · rw [h2]; exact Or.inl rfl
          · rw [h2]
            simp only [Option.bind_some]
            rcases expect_white ',' (text w') (Tok.comma.text ++ (text r0 ++ ']' :: r)) ww' (by decide) with h3 | h3
            · rw [h3]
              simp only
              rcases expect_white ']' (text w') (Tok.comma.text ++ (text r0 ++ ']' :: r)) ww' (by decide) with h4 | h4
              · rw [h4]; exact Or.inl rfl
              · rw [h4]
                have : Json.expect ']' (Tok.comma.text ++ (text r0 ++ ']' :: r)) = none := Json.expect_other _ _ _ (by decide) (by decide)
                rw [this]; exact Or.inl rfl
            · rw [h3]
              have : Json.expect ',' (Tok.comma.text ++ (text r0 ++ ']' :: r)) = some (text r0 ++ ']' :: r) := Json.expect_same _ _ (by decide)
              rw [this]
              simp only
              cases l with
              | nil =>
                rw [SItems] at hr0
                left
                rw [readItems_none]; · rfl
                intro k
                rcases readVal_white k (text r0) (']' :: r) (gap_text hr0 g4.2) with h4 | h4
                · exact h4
                · rw [h4]; exact readVal_bad k _ _ (by decide) (by decide) (by decide) (by decide) (by decide)
              | cons v' l' =>
                rcases read_items (v' :: l') r0 hr0 g4.2 (by simp) n r with h4 | h4
                · rw [h4]; exact Or.inl rfl
                · rw [h4]; exact Or.inr rfl
theorem read_fields {tr bk : Bool} : ∀ (l : List (Str × Json.J)) (b : List Tok), SFields tr bk l b → (∀ t ∈ b, t.Good) → l ≠ [] → ∀ (n : Nat) (r : Str),
    Reads (Json.readFields n (text b ++ '}' :: r)) l r
  | [], b, h, hg, hl, n, r => absurd rfl hl
  | (k, v) :: l, b, h, hg, hl, n, r => by
    rw [SFields] at h
    obtain ⟨w, t, w1, w2, u, w', hw, hk, hw1, hw2, hu, hw', h⟩ := h
    cases n with
    | zero => exact Or.inl rfl
    | succ n =>
      unfold Reads
      rw [Json.readFields]
      rcases h with ⟨rfl, rfl⟩ | ⟨hl, r0, hr0, rfl⟩
      · have g1 := good_append hg
        have g2 := good_cons g1.2
        have g3 := good_append g2.2
        have g4 := good_append (good_cons g3.2).2
        have g5 := good_append g4.2
        rw [text_append, text_cons, text_append, text_cons, text_append, text_append]
        simp only [List.append_assoc]
        have ww' := gap_text hw' g5.2
        have hd : Json.Delim (text w' ++ '}' :: r) := delim_white _ _ ww' (Json.delim_cons _ _ (by decide))
        rcases expect_white '"' (text w) (t.text ++ (text w1 ++ (Tok.colon.text ++ (text w2 ++ (text u ++ (text w' ++ '}' :: r)))))) (gap_text hw g1.1)
          (by decide) with h1 | h1
        · rw [h1]; exact Or.inl rfl
        · rw [h1]
          obtain ⟨c, s, hc, c1, c2, c3⟩ := key_char hk g2.1
          by_cases hq : c = '"'
          · have := c3 hq
            subst this
            have hqq := quoted_plain hk.1 g2.1.quotes.2
            obtain ⟨y, e, hy⟩ := Json.quoted_append hqq (text w1 ++ (Tok.colon.text ++ (text w2 ++ (text u ++ (text w' ++ '}' :: r)))))
            have e' : (Tok.str true k).text ++ (text w1 ++ (Tok.colon.text ++ (text w2 ++ (text u ++ (text w' ++ '}' :: r))))) = '"' :: y := e
            rw [e', Json.expect_same _ _ (by decide)]
            simp only [Option.bind_some, hy]
            rcases expect_white ':' (text w1) (Tok.colon.text ++ (text w2 ++ (text u ++ (text w' ++ '}' :: r)))) (gap_text hw1 g3.1) (by decide) with h2 | h2
            · rw [h2]; exact Or.inl rfl
            · rw [h2]
              have : Json.expect ':' (Tok.colon.text ++ (text w2 ++ (text u ++ (text w' ++ '}' :: r)))) = some (text w2 ++ (text u ++ (text w' ++ '}' :: r))) :=
                Json.expect_same _ _ (by decide)
              rw [this]
              simp only [Option.bind_some]
              rcases readVal_white n (text w2) (text u ++ (text w' ++ '}' :: r)) (gap_text hw2 g4.1) with h3 | h3
              · rw [h3]; exact Or.inl rfl
              · rw [h3]
                rcases read_val v u hu g5.1 n _ hd with h4 | h4
                · rw [h4]; exact Or.inl rfl
                · rw [h4]
                  simp only [Option.bind_some]
                  have hcm : Json.expect ',' (text w' ++ '}' :: r) = none := by
                    rcases expect_white ',' (text w') ('}' :: r) ww' (by decide) with h5 | h5
                    · exact h5
                    · rw [h5]; exact Json.expect_other _ _ _ (by decide) (by decide)
                  rw [hcm]
                  simp only
                  rcases expect_white '}' (text w') ('}' :: r) ww' (by decide) with h5 | h5
                  · rw [h5]; exact Or.inl rfl
                  · rw [h5, Json.expect_same _ _ (by decide)]; exact Or.inr rfl
          · rw [hc, List.cons_append, Json.expect_other _ _ _ c1 hq]; exact Or.inl rfl
      · have g1 := good_append hg
        have g2 := good_cons g1.2
        have g3 := good_append g2.2
        have g4 := good_append (good_cons g3.2).2
        have g5 := good_append g4.2
        have g6 := good_append g5.2
        have g7 := good_cons g6.2
        rw [text_append, text_cons, text_append, text_cons, text_append, text_append, text_append, text_cons]
        simp only [List.append_assoc]
        have ww' := gap_text hw' g6.1
        generalize hz : Tok.comma.text ++ (text r0 ++ '}' :: r) = z
        have hzc : z = ',' :: (text r0 ++ '}' :: r) := by rw [← hz]; rfl
        have hd : Json.Delim (text w' ++ z) := delim_white _ _ ww' (by rw [hzc]; exact Json.delim_cons _ _ (by decide))
        rcases expect_white '"' (text w) (t.text ++ (text w1 ++ (Tok.colon.text ++ (text w2 ++ (text u ++ (text w' ++ z)))))) (gap_text hw g1.1)
          (by decide) with h1 | h1
        · rw [h1]; exact Or.inl rfl
        · rw [h1]
          obtain ⟨c, s, hc, c1, c2, c3⟩ := key_char hk g2.1
          by_cases hq : c = '"'
          · have := c3 hq
            subst this
            have hqq := quoted_plain hk.1 g2.1.quotes.2
            obtain ⟨y, e, hy⟩ := Json.quoted_append hqq (text w1 ++ (Tok.colon.text ++ (text w2 ++ (text u ++ (text w' ++ z)))))
            have e' : (Tok.str true k).text ++ (text w1 ++ (Tok.colon.text ++ (text w2 ++ (text u ++ (text w' ++ z))))) = '"' :: y := e
            rw [e', Json.expect_same _ _ (by decide)]
            simp only [Option.bind_some, hy]
            rcases expect_white ':' (text w1) (Tok.colon.text ++ (text w2 ++ (text u ++ (text w' ++ z)))) (gap_text hw1 g3.1) (by decide) with h2 | h2
            · rw [h2]; exact Or.inl rfl
            · rw [h2]
              have : Json.expect ':' (Tok.colon.text ++ (text w2 ++ (text u ++ (text w' ++ z)))) = some (text w2 ++ (text u ++ (text w' ++ z))) :=
                Json.expect_same _ _ (by decide)
              rw [this]
              simp only [Option.bind_some]
              rcases readVal_white n (text w2) (text u ++ (text w' ++ z)) (gap_text hw2 g4.1) with h3 | h3
              · rw [h3]; exact Or.inl rfl
              · rw [h3]
                rcases read_val v u hu g5.1 n _ hd with h4 | h4
                · rw [h4]; exact Or.inl rfl
                · rw [h4]
                  simp only [Option.bind_some]
                  rcases expect_white ',' (text w') z ww' (by decide) with h5 | h5
                  · rw [h5]
                    simp only
                    rcases expect_white '}' (text w') z ww' (by decide) with h6 | h6
                    · rw [h6]; exact Or.inl rfl
                    · rw [h6, hzc, Json.expect_other _ _ _ (by decide) (by decide)]; exact Or.inl rfl
                  · rw [h5, hzc, Json.expect_same _ _ (by decide)]
                    simp only
                    cases l with
                    | nil =>
                      rw [SFields] at hr0
                      left
                      rw [readFields_none]; · rfl
                      rcases expect_white '"' (text r0) ('}' :: r) (gap_text hr0 g7.2) (by decide) with h6 | h6
                      · exact h6
                      · rw [h6]; exact Json.expect_other _ _ _ (by decide) (by decide)
                    | cons v' l' =>
                      rcases read_fields (v' :: l') r0 hr0 g7.2 (by simp) n r with h6 | h6
                      · rw [h6]; exact Or.inl rfl
                      · rw [h6]; exact Or.inr rfl
          · rw [hc, List.cons_append, Json.expect_other _ _ _ c1 hq]; exact Or.inl rfl
end

/-- A sloppy document that happens to be JSON denotes the same value. -/
theorem loads_sloppy {tr bk : Bool} {v : Json.J} {w u w' : List Tok} (hw : Gap w) (hu : Sloppy tr bk v u) (hw' : Gap w')
    (hg : ∀ t ∈ w ++ (u ++ w'), t.Good) : Json.loads (text (w ++ (u ++ w'))) = none ∨ Json.loads (text (w ++ (u ++ w'))) = some v := by
  have g1 := good_append hg
  have g2 := good_append g1.2
  unfold Json.loads
  generalize 3 * (text (w ++ (u ++ w'))).length + 1 = n
  rw [text_append, text_append]
  rcases readVal_white n (text w) (text u ++ text w') (gap_text hw g1.1) with h1 | h1
  · rw [h1]; exact Or.inl rfl
  · rw [h1]
    have hd : Json.Delim (text w') := by
      have := delim_white (text w') [] (gap_text hw' g2.2) (fun c h => by cases h)
      rw [List.append_nil] at this
      exact this
    rcases read_val v u hu g2.1 n _ hd with h2 | h2
    · rw [h2]; exact Or.inl rfl
    · rw [h2]
      simp only [Option.bind_some]
      split
      · exact Or.inr rfl
      · exact Or.inl rfl

/-! ## Missing closing brackets -/

/-- Closing brackets only. -/
def Closers (cs : List Tok) : Prop := ∀ t ∈ cs, t.isClosing = true

theorem closers_append {a b : List Tok} (h : Closers (a ++ b)) : Closers a ∧ Closers b :=
  ⟨fun t ht => h t (List.mem_append_left _ ht), fun t ht => h t (List.mem_append_right _ ht)⟩

/-- A token that is no closing bracket lies before the closing brackets at the end. -/
theorem cut_after {a : List Tok} {t : Tok} {y x cs : List Tok} (h : a ++ t :: y = x ++ cs) (ht : t.isClosing = false) (hc : Closers cs) :
    ∃ y', x = a ++ t :: y' ∧ y = y' ++ cs := by
  rcases List.append_eq_append_iff.1 h with ⟨a', e1, e2⟩ | ⟨c', e1, e2⟩
  · cases a' with
    | nil =>
      rw [List.nil_append] at e2
      have := hc t (by rw [← e2]; exact List.mem_cons_self)
      rw [ht] at this; cases this
    | cons z a' =>
      rw [List.cons_append] at e2
      obtain ⟨rfl, e3⟩ := List.cons.inj e2
      exact ⟨a', e1, e3⟩
  · have := hc t (by rw [e2]; simp)
    rw [ht] at this; cases this

theorem cut_last {X u' cs : List Tok} {c : Tok} (h : X ++ [c] = u' ++ cs) (hne : cs ≠ []) : ∃ cs', cs = cs' ++ [c] ∧ X = u' ++ cs' := by
  have e := List.dropLast_concat_getLast hne
  rw [← e, ← List.append_assoc] at h
  obtain ⟨h1, h2⟩ := List.append_inj' h rfl
  refine ⟨cs.dropLast, ?_, h1⟩
  rw [← e]
  simp only [List.dropLast_concat]
  rw [h2]

/-- Where the closing brackets at the end begin, when white space follows a value. -/
theorem cut_gap {u w' a' cs : List Tok} (h : u ++ w' = a' ++ cs) (hw : Gap w') (hc : Closers cs) :
    (cs = [] ∧ a' = u ++ w') ∨ (cs ≠ [] ∧ w' = [] ∧ u = a' ++ cs) := by
  have hx : ∀ t ∈ w', t ∉ cs := by
    intro t h1 h2
    have a := hw t h1
    have b := hc t h2
    cases t <;> first | (cases a; done) | cases b
  rcases List.append_eq_append_iff.1 h with ⟨x, e1, e2⟩ | ⟨c', e1, e2⟩
  · left
    cases cs with
    | nil => exact ⟨rfl, by rw [h]; simp⟩
    | cons c cs => exact absurd List.mem_cons_self (hx c (by rw [e2]; simp))
  · cases w' with
    | nil =>
      rw [List.append_nil] at e2 h
      subst e2
      cases cs with
      | nil => exact Or.inl ⟨rfl, by rw [h]; simp⟩
      | cons c cs => exact Or.inr ⟨by simp, rfl, h⟩
    | cons z w' => exact absurd (by rw [e2]; simp) (hx z List.mem_cons_self)

theorem text_snoc_closing (b : List Tok) (q : Bool) : text (b ++ [.closing q]) = text b ++ (Tok.closing q).text := by
  rw [text_append, text_cons, text_nil, List.append_nil]

mutual
/-- A document without its last closing brackets is not JSON. -/
theorem cut_val {tr bk : Bool} : ∀ (v : Json.J) (u : List Tok), Sloppy tr bk v u → (∀ t ∈ u, t.Good) → ∀ (u' cs : List Tok), u = u' ++ cs → cs ≠ [] →
    Closers cs → ∀ (n : Nat) (r : Str), (∀ c ∈ r, White c) → Json.readVal n (text u' ++ r) = none
  | .token t ht, u, h, hg, u', cs, e, hne, hc, n, r, hr => by
    rw [Sloppy] at h; subst h
    obtain ⟨y, e1, e2⟩ := cut_after (a := []) (t := .bare t) (y := []) e rfl hc
    exact absurd (List.append_eq_nil_iff.1 e2.symm).2 hne
  | .str x, u, h, hg, u', cs, e, hne, hc, n, r, hr => by
    rw [Sloppy] at h; obtain ⟨_, q, rfl⟩ := h
    obtain ⟨y, e1, e2⟩ := cut_after (a := []) (t := .str q x) (y := []) e rfl hc
    exact absurd (List.append_eq_nil_iff.1 e2.symm).2 hne
  | .arr l, u, h, hg, u', cs, e, hne, hc, n, r, hr => by
    rw [Sloppy] at h
    obtain ⟨b, rfl, hb⟩ := h
    have gb := (good_append (good_cons hg).2).1
    obtain ⟨y, rfl, e2⟩ := cut_after (a := []) (t := .opening true) e rfl hc
    obtain ⟨cs', rfl, e3⟩ := cut_last e2 hne
    have e4 : text ([] ++ .opening true :: y) ++ r = '[' :: (text y ++ r) := by simp [text, Tok.text]
    rw [e4]
    rcases readVal_open n (text y ++ r) with h | ⟨m, rfl, h⟩
    · exact h
    · rw [h]
      cases m with
      | zero => rfl
      | succ m =>
        have hi := cut_items l b hb gb y cs' e3 (closers_append hc).1 m r hr
        rw [Json.readArr, hi.1, hi.2]; rfl
  | .obj l, u, h, hg, u', cs, e, hne, hc, n, r, hr => by
    rw [Sloppy] at h
    obtain ⟨b, rfl, hb⟩ := h
    have gb := (good_append (good_cons hg).2).1
    obtain ⟨y, rfl, e2⟩ := cut_after (a := []) (t := .opening false) e rfl hc
    obtain ⟨cs', rfl, e3⟩ := cut_last e2 hne
    have e4 : text ([] ++ .opening false :: y) ++ r = '{' :: (text y ++ r) := by simp [text, Tok.text]
    rw [e4]
    rcases readVal_brace n (text y ++ r) with h | ⟨m, rfl, h⟩
    · exact h
    · rw [h]
      cases m with
      | zero => rfl
      | succ m =>
        have hi := cut_fields l b hb gb y cs' e3 (closers_append hc).1 m r hr
        rw [Json.readObj, hi.1, hi.2]; rfl
theorem cut_items {tr bk : Bool} : ∀ (l : List Json.J) (b : List Tok), SItems tr bk l b → (∀ t ∈ b, t.Good) → ∀ (b' cs : List Tok), b = b' ++ cs →
    Closers cs → ∀ (n : Nat) (r : Str), (∀ c ∈ r, White c) → Json.expect ']' (text b' ++ r) = none ∧ Json.readItems n (text b' ++ r) = none
  | [], b, h, hg, b', cs, e, hc, n, r, hr => by
    rw [SItems] at h
    subst e
    have hb' : ∀ c ∈ text b' ++ r, White c := by
      intro c hcm
      rcases List.mem_append.1 hcm with hm | hm
      · exact gap_text (fun t ht => h t (List.mem_append_left _ ht)) (good_append hg).1 c hm
      · exact hr c hm
    exact ⟨expect_only_white _ _ hb' (by decide), readItems_none _ _ (fun m => readVal_only_white m _ hb')⟩
  | v :: l, b, h, hg, b', cs, e, hc, n, r, hr => by
    rw [SItems] at h
    obtain ⟨w, u, w', hw, hu, hw', h⟩ := h
    obtain ⟨t0, u0, hu0, t1, t2, _⟩ := sloppy_head hu
    obtain ⟨c0, s0, hc0, c1, c2, c3⟩ := sloppy_char hu
    rcases h with ⟨rfl, rfl⟩ | ⟨hl, r0, hr0, rfl⟩
    · have g1 := good_append hg
      have g2 := good_append g1.2
      have wW := gap_text hw g1.1
      rw [hu0, List.cons_append] at e
      obtain ⟨y, rfl, e2⟩ := cut_after e t2 hc
      have e3 : u ++ w' = (t0 :: y) ++ cs := by rw [hu0, List.cons_append, e2, List.cons_append]
      rcases cut_gap e3 hw' hc with ⟨rfl, e4⟩ | ⟨hne, rfl, e4⟩
      · have wW' : ∀ c ∈ text w' ++ r, White c := by
          intro c hcm
          rcases List.mem_append.1 hcm with hm | hm
          · exact gap_text hw' g2.2 c hm
          · exact hr c hm
        rw [e4, text_append, text_append, List.append_assoc, List.append_assoc]
        refine ⟨?_, ?_⟩
        · rcases expect_white ']' (text w) (text u ++ (text w' ++ r)) wW (by decide) with h1 | h1
          · exact h1
          · rw [h1, hc0]; exact Json.expect_other _ _ _ c1 c2
        · cases n with
          | zero => rfl
          | succ n =>
            rw [Json.readItems]
            rcases readVal_white n (text w) (text u ++ (text w' ++ r)) wW with h1 | h1
            · rw [h1]; rfl
            · rw [h1]
              have hd : Json.Delim (text w' ++ r) := by
                have := delim_white _ [] wW' (fun c h => by cases h)
                rw [List.append_nil] at this
                exact this
              rcases read_val v u hu g2.1 n _ hd with h2 | h2
              · rw [h2]; rfl
              · rw [h2]
                simp only [Option.bind_some]
                rw [expect_only_white _ _ wW' (by decide), expect_only_white _ _ wW' (by decide)]; rfl
      · rw [text_append, List.append_assoc]
        refine ⟨?_, ?_⟩
        · rcases expect_white ']' (text w) (text (t0 :: y) ++ r) wW (by decide) with h1 | h1
          · exact h1
          · rw [h1]
            have e5 : text u = text (t0 :: y) ++ text cs := by rw [e4, text_append]
            cases hy : text (t0 :: y) with
            | nil =>
              exfalso
              obtain ⟨c9, r9, h9, _⟩ := head_nonspace t0 (g2.1 t0 (by rw [hu0]; exact List.mem_cons_self)) t1
              rw [text_cons, h9] at hy
              cases hy
            | cons c5 s5 =>
              rw [hc0, hy] at e5
              have := (List.cons.inj e5).1
              subst this
              exact Json.expect_other _ _ _ c1 c2
        · cases n with
          | zero => rfl
          | succ n =>
            rw [Json.readItems]
            rcases readVal_white n (text w) (text (t0 :: y) ++ r) wW with h1 | h1
            · rw [h1]; rfl
            · rw [h1, cut_val v u hu g2.1 (t0 :: y) cs e4 hne hc n r hr]; rfl
    · have g1 := good_append hg
      have g2 := good_append g1.2
      have g3 := good_append g2.2
      have wW := gap_text hw g1.1
      have ww' := gap_text hw' g3.1
      have e' : (w ++ (u ++ w')) ++ .comma :: r0 = b' ++ cs := by rw [← e]; simp
      obtain ⟨y, rfl, e2⟩ := cut_after e' rfl hc
      have e3 : text ((w ++ (u ++ w')) ++ .comma :: y) ++ r = text w ++ (text u ++ (text w' ++ ',' :: (text y ++ r))) := by
        simp [text_append, text_cons, Tok.text]
      rw [e3]
      refine ⟨?_, ?_⟩
      · rcases expect_white ']' (text w) (text u ++ (text w' ++ ',' :: (text y ++ r))) wW (by decide) with h1 | h1
        · exact h1
        · rw [h1, hc0]; exact Json.expect_other _ _ _ c1 c2
      · cases n with
        | zero => rfl
        | succ n =>
          rw [Json.readItems]
          rcases readVal_white n (text w) (text u ++ (text w' ++ ',' :: (text y ++ r))) wW with h1 | h1
          · rw [h1]; rfl
          · rw [h1]
            rcases read_val v u hu g2.1 n (text w' ++ ',' :: (text y ++ r)) (delim_white _ _ ww' (Json.delim_cons _ _ (by decide))) with h2 | h2
            · rw [h2]; rfl
            · rw [h2]
              simp only [Option.bind_some]
              have hi := (cut_items l r0 hr0 (good_cons g3.2).2 y cs e2 hc n r hr).2
              rcases expect_white ',' (text w') (',' :: (text y ++ r)) ww' (by decide) with h3 | h3
              · rw [h3]
                simp only
                rcases expect_white ']' (text w') (',' :: (text y ++ r)) ww' (by decide) with h4 | h4
                · rw [h4]; rfl
                · rw [h4, Json.expect_other _ _ _ (by decide) (by decide)]; rfl
              · rw [h3, Json.expect_same _ _ (by decide)]
                simp only
                rw [hi]; rfl
theorem cut_fields {tr bk : Bool} : ∀ (l : List (Str × Json.J)) (b : List Tok), SFields tr bk l b → (∀ t ∈ b, t.Good) → ∀ (b' cs : List Tok), b = b' ++ cs →
    Closers cs → ∀ (n : Nat) (r : Str), (∀ c ∈ r, White c) → Json.expect '}' (text b' ++ r) = none ∧ Json.readFields n (text b' ++ r) = none
  | [], b, h, hg, b', cs, e, hc, n, r, hr => by
    rw [SFields] at h
    subst e
    have hb' : ∀ c ∈ text b' ++ r, White c := by
      intro c hcm
      rcases List.mem_append.1 hcm with hm | hm
      · exact gap_text (fun t ht => h t (List.mem_append_left _ ht)) (good_append hg).1 c hm
      · exact hr c hm
    exact ⟨expect_only_white _ _ hb' (by decide), readFields_none _ _ (expect_only_white _ _ hb' (by decide))⟩
  | (k, v) :: l, b, h, hg, b', cs, e, hc, n, r, hr => by
    rw [SFields] at h
    obtain ⟨w, t, w1, w2, u, w', hw, hk, hw1, hw2, hu, hw', h⟩ := h
    -- the text up to and including the colon is there
    have key : ∀ (rest z : List Tok), b = w ++ t :: (w1 ++ .colon :: (w2 ++ rest)) → b' = w ++ t :: (w1 ++ .colon :: (w2 ++ z)) →
        (∀ m, Json.readVal m (text z ++ r) = none ∨ ∃ x, Json.readVal m (text z ++ r) = some x ∧
          (∀ y, Json.expect ',' x.2 = some y → ∀ m', m' ≤ m → Json.readFields m' y = none) ∧ (Json.expect ',' x.2 = none → Json.expect '}' x.2 = none)) →
        Json.expect '}' (text b' ++ r) = none ∧ Json.readFields n (text b' ++ r) = none := by
      intro rest z eb eb' hz
      rw [eb] at hg
      have g1 := good_append hg
      have g2 := good_cons g1.2
      have g3 := good_append g2.2
      have g4 := good_append (good_cons g3.2).2
      have wW := gap_text hw g1.1
      obtain ⟨c, s, hcc, c1, c2, c3⟩ := key_char hk g2.1
      have e3 : text b' ++ r = text w ++ (t.text ++ (text w1 ++ ':' :: (text w2 ++ (text z ++ r)))) := by
        rw [eb']; simp [text_append, text_cons, Tok.text]
      rw [e3]
      refine ⟨?_, ?_⟩
      · rcases expect_white '}' (text w) (t.text ++ (text w1 ++ ':' :: (text w2 ++ (text z ++ r)))) wW (by decide) with h1 | h1
        · exact h1
        · rw [h1, hcc]; exact Json.expect_other _ _ _ c1 c2
      · cases n with
        | zero => rfl
        | succ n =>
          rw [Json.readFields]
          rcases expect_white '"' (text w) (t.text ++ (text w1 ++ ':' :: (text w2 ++ (text z ++ r)))) wW (by decide) with h1 | h1
          · rw [h1]; rfl
          · rw [h1]
            by_cases hq : c = '"'
            · have := c3 hq
              subst this
              have hqq := quoted_plain hk.1 g2.1.quotes.2
              obtain ⟨y, e5, hy⟩ := Json.quoted_append hqq (text w1 ++ ':' :: (text w2 ++ (text z ++ r)))
              have e' : (Tok.str true k).text ++ (text w1 ++ ':' :: (text w2 ++ (text z ++ r))) = '"' :: y := e5
              rw [e', Json.expect_same _ _ (by decide)]
              simp only [Option.bind_some, hy]
              rcases expect_white ':' (text w1) (':' :: (text w2 ++ (text z ++ r))) (gap_text hw1 g3.1) (by decide) with h2 | h2
              · rw [h2]; rfl
              · rw [h2, Json.expect_same _ _ (by decide)]
                simp only [Option.bind_some]
                rcases readVal_white n (text w2) (text z ++ r) (gap_text hw2 g4.1) with h3 | h3
                · rw [h3]; rfl
                · rw [h3]
                  rcases hz n with h4 | ⟨x, h4, h5, h6⟩
                  · rw [h4]; rfl
                  · rw [h4]
                    simp only [Option.bind_some]
                    cases hx : Json.expect ',' x.2 with
                    | none => simp only; rw [h6 hx]; rfl
                    | some y' => simp only; rw [h5 y' hx n (Nat.le_refl _)]; rfl
            · rw [hcc, List.cons_append, Json.expect_other _ _ _ c1 hq]; rfl
    obtain ⟨t0, u0, hu0, t1, t2, _⟩ := sloppy_head hu
    rcases h with ⟨rfl, eb⟩ | ⟨hl, r0, hr0, eb⟩
    · rw [eb] at hg
      have g1 := good_append hg
      have g2 := good_cons g1.2
      have g3 := good_append g2.2
      have g4 := good_append (good_cons g3.2).2
      have g5 := good_append g4.2
      have e' : (w ++ t :: (w1 ++ .colon :: w2)) ++ t0 :: (u0 ++ w') = b' ++ cs := by rw [← e, eb, hu0]; simp
      obtain ⟨y, eb', e2⟩ := cut_after e' t2 hc
      have e3 : u ++ w' = (t0 :: y) ++ cs := by rw [hu0, List.cons_append, e2, List.cons_append]
      refine key (u ++ w') (t0 :: y) eb (by rw [eb']; simp) (fun m => ?_)
      rcases cut_gap e3 hw' hc with ⟨rfl, e4⟩ | ⟨hne, rfl, e4⟩
      · have wW' : ∀ c ∈ text w' ++ r, White c := by
          intro c hcm
          rcases List.mem_append.1 hcm with hm | hm
          · exact gap_text hw' g5.2 c hm
          · exact hr c hm
        rw [e4, text_append, List.append_assoc]
        have hd : Json.Delim (text w' ++ r) := by
          have := delim_white _ [] wW' (fun c h => by cases h)
          rw [List.append_nil] at this
          exact this
        rcases read_val v u hu g5.1 m _ hd with h2 | h2
        · exact Or.inl h2
        · refine Or.inr ⟨_, h2, ?_, fun _ => expect_only_white _ _ wW' (by decide)⟩
          intro y' hy'
          have hn : Json.expect ',' (text w' ++ r) = none := expect_only_white _ _ wW' (by decide)
          simp only at hy'
          rw [hn] at hy'; cases hy'
      · exact Or.inl (cut_val v u hu g5.1 (t0 :: y) cs e4 hne hc m r hr)
    · rw [eb] at hg
      have g1 := good_append hg
      have g2 := good_cons g1.2
      have g3 := good_append g2.2
      have g4 := good_append (good_cons g3.2).2
      have g5 := good_append g4.2
      have g6 := good_append g5.2
      have ww' := gap_text hw' g6.1
      have e' : (w ++ t :: (w1 ++ .colon :: (w2 ++ (u ++ w')))) ++ .comma :: r0 = b' ++ cs := by rw [← e, eb]; simp
      obtain ⟨y, eb', e2⟩ := cut_after e' rfl hc
      refine key (u ++ (w' ++ .comma :: r0)) (u ++ (w' ++ .comma :: y)) eb (by rw [eb']; simp) (fun m => ?_)
      have e3 : text (u ++ (w' ++ .comma :: y)) ++ r = text u ++ (text w' ++ ',' :: (text y ++ r)) := by
        simp [text_append, text_cons, Tok.text]
      rw [e3]
      rcases read_val v u hu g5.1 m (text w' ++ ',' :: (text y ++ r)) (delim_white _ _ ww' (Json.delim_cons _ _ (by decide))) with h2 | h2
      · exact Or.inl h2
      · refine Or.inr ⟨_, h2, ?_, ?_⟩
        · intro y' hy' m' _
          simp only at hy'
          rcases expect_white ',' (text w') (',' :: (text y ++ r)) ww' (by decide) with h3 | h3
          · rw [h3] at hy'; cases hy'
          · rw [h3, Json.expect_same _ _ (by decide)] at hy'
            cases hy'
            exact (cut_fields l r0 hr0 (good_cons g6.2).2 y cs e2 hc m' r hr).2
        · intro hn
          simp only at hn ⊢
          rcases expect_white '}' (text w') (',' :: (text y ++ r)) ww' (by decide) with h4 | h4
          · exact h4
          · rw [h4]; exact Json.expect_other _ _ _ (by decide) (by decide)
end

theorem loads_cut {tr bk : Bool} {v : Json.J} {w u' cs w' : List Tok} (hw : Gap w) (hu : Sloppy tr bk v (u' ++ cs)) (hw' : Gap w')
    (hg : ∀ t ∈ w ++ (u' ++ w'), t.Good) (hne : cs ≠ []) (hc : Closers cs) : Json.loads (text (w ++ (u' ++ w'))) = none := by
  have g1 := good_append hg
  have g2 := good_append g1.2
  have gu : ∀ t ∈ u' ++ cs, t.Good := by
    intro t ht
    rcases List.mem_append.1 ht with h | h
    · exact g2.1 t h
    · have := hc t h
      cases t <;> first | trivial | cases this
  unfold Json.loads
  generalize 3 * (text (w ++ (u' ++ w'))).length + 1 = n
  rw [text_append, text_append]
  rcases readVal_white n (text w) (text u' ++ text w') (gap_text hw g1.1) with h1 | h1
  · rw [h1]; rfl
  · rw [h1, cut_val v _ hu gu u' cs rfl hne hc n _ (gap_text hw' g2.2)]; rfl

/-! ## The closing brackets that are added -/

/-- The characters of closing brackets. -/
theorem scan_skip (s r st : Str) (h : ∀ c ∈ s, bracket c st = .ok st ∧ outMode c = .out) : scan .out st (s ++ r) = scan .out st r := by
  induction s with
  | nil => rfl
  | cons c s ih =>
    obtain ⟨h1, h2⟩ := h c List.mem_cons_self
    rw [List.cons_append, scan, h1]
    simp only
    rw [h2]
    exact ih (fun d hd => h d (List.mem_cons_of_mem _ hd))

theorem bracket_plain (c : Char) (st : Str) (h : c ≠ '{' ∧ c ≠ '[' ∧ c ≠ '}' ∧ c ≠ ']') : bracket c st = .ok st :=
  bracket_other (by simp only [List.mem_cons, List.not_mem_nil, or_false]; grind) st

theorem scan_tokChars (t r st : Str) (h : ∀ c ∈ t, Json.tokChar c = true) : scan .out st (t ++ r) = scan .out st r := by
  refine scan_skip t r st (fun c hc => ?_)
  have p := Json.tokChar_plain c (h c hc)
  have hne : c ≠ '\\' := fun e => by
    have := h c hc
    rw [e] at this
    revert this; decide
  refine ⟨bracket_plain c st ⟨p.2.2.2.1, p.2.2.1, p.2.2.2.2.2.1, p.2.2.2.2.1⟩, ?_⟩
  unfold outMode
  rw [if_neg hne, if_neg p.2.1]

theorem scan_inside (s r st : Str) (h1 : ∀ c ∈ s, c ≠ '\\') (h2 : '"' ∉ s) : scan .str st (s ++ '"' :: r) = scan .out st r := by
  induction s with
  | nil => rfl
  | cons c s ih =>
    rw [List.cons_append, scan]
    have : strMode c = .str := by
      unfold strMode
      rw [if_neg (h1 c List.mem_cons_self), if_neg (fun e => h2 (by rw [e]; exact List.mem_cons_self))]
    rw [this]
    exact ih (fun d hd => h1 d (List.mem_cons_of_mem _ hd)) (fun hm => h2 (List.mem_cons_of_mem _ hm))

theorem scan_str (s r st : Str) (hp : Plain s) (h2 : '"' ∉ s) : scan .out st ((Tok.str true s).text ++ r) = scan .out st r := by
  have e : (Tok.str true s).text ++ r = '"' :: (s ++ '"' :: r) := by simp [Tok.text]
  rw [e, scan]
  exact scan_inside s r st (fun c hc => (hp c hc).2) h2

theorem scan_gap {w : List Tok} (hw : Gap w) (hn : Normed w) (r st : Str) : scan .out st (text w ++ r) = scan .out st r := by
  refine scan_skip _ _ _ (fun c hc => ?_)
  rcases mem_normed_gap hw hn c hc with rfl | rfl | rfl | rfl <;> exact ⟨rfl, rfl⟩

theorem scan_comma (r st : Str) : scan .out st (',' :: r) = scan .out st r := rfl
theorem scan_colon (r st : Str) : scan .out st (':' :: r) = scan .out st r := rfl
theorem scan_square (r st : Str) : scan .out st ('[' :: r) = scan .out (']' :: st) r := rfl
theorem scan_brace (r st : Str) : scan .out st ('{' :: r) = scan .out ('}' :: st) r := rfl
theorem scan_square' (r st : Str) : scan .out (']' :: st) (']' :: r) = scan .out st r := rfl
theorem scan_brace' (r st : Str) : scan .out ('}' :: st) ('}' :: r) = scan .out st r := rfl

mutual
/-- A complete value leaves the open brackets as they were. -/
theorem scan_val : ∀ (v : Json.J) (u : List Tok), Sloppy false false v u → Normed u → (∀ t ∈ u, t.Good) → ∀ (r st : Str),
    scan .out st (text u ++ r) = scan .out st r
  | .token t ht, u, h, hn, hg, r, st => by
    rw [Sloppy] at h; subst h
    rw [text_cons, text_nil, List.append_nil]
    exact scan_tokChars t r st (Json.token_chars ht).2
  | .str x, u, h, hn, hg, r, st => by
    rw [Sloppy] at h; obtain ⟨hp, q, rfl⟩ := h
    have := str_double (hn _ List.mem_cons_self)
    subst this
    rw [text_cons, text_nil, List.append_nil]
    exact scan_str x r st hp (hg _ List.mem_cons_self).quotes.2
  | .arr l, u, h, hn, hg, r, st => by
    rw [Sloppy] at h
    obtain ⟨b, rfl, hb⟩ := h
    have e : text (.opening true :: (b ++ [.closing true])) ++ r = '[' :: (text b ++ ']' :: r) := by
      rw [text_cons, text_append]; simp [text, Tok.text]
    rw [e, scan_square, scan_items l b hb (normed_append.1 (normed_cons.1 hn).2).1 (good_append (good_cons hg).2).1, scan_square']
  | .obj l, u, h, hn, hg, r, st => by
    rw [Sloppy] at h
    obtain ⟨b, rfl, hb⟩ := h
    have e : text (.opening false :: (b ++ [.closing false])) ++ r = '{' :: (text b ++ '}' :: r) := by
      rw [text_cons, text_append]; simp [text, Tok.text]
    rw [e, scan_brace, scan_fields l b hb (normed_append.1 (normed_cons.1 hn).2).1 (good_append (good_cons hg).2).1, scan_brace']
theorem scan_items : ∀ (l : List Json.J) (b : List Tok), SItems false false l b → Normed b → (∀ t ∈ b, t.Good) → ∀ (r st : Str),
    scan .out st (text b ++ r) = scan .out st r
  | [], b, h, hn, hg, r, st => by
    rw [SItems] at h
    exact scan_gap h hn r st
  | v :: l, b, h, hn, hg, r, st => by
    rw [SItems] at h
    obtain ⟨w, u, w', hw, hu, hw', h⟩ := h
    rcases h with ⟨rfl, rfl⟩ | ⟨hl, r0, hr0, rfl⟩
    · have n1 := normed_append.1 hn
      have n2 := normed_append.1 n1.2
      have g1 := good_append hg
      have g2 := good_append g1.2
      rw [text_append, text_append]
      simp only [List.append_assoc]
      rw [scan_gap hw n1.1, scan_val v u hu n2.1 g2.1, scan_gap hw' n2.2]
    · have n1 := normed_append.1 hn
      have n2 := normed_append.1 n1.2
      have n3 := normed_append.1 n2.2
      have g1 := good_append hg
      have g2 := good_append g1.2
      have g3 := good_append g2.2
      have e : text (w ++ (u ++ (w' ++ .comma :: r0))) ++ r = text w ++ (text u ++ (text w' ++ ',' :: (text r0 ++ r))) := by
        simp [text_append, text_cons, Tok.text]
      rw [e, scan_gap hw n1.1, scan_val v u hu n2.1 g2.1, scan_gap hw' n3.1, scan_comma,
        scan_items l r0 hr0 (normed_cons.1 n3.2).2 (good_cons g3.2).2]
theorem scan_fields : ∀ (l : List (Str × Json.J)) (b : List Tok), SFields false false l b → Normed b → (∀ t ∈ b, t.Good) → ∀ (r st : Str),
    scan .out st (text b ++ r) = scan .out st r
  | [], b, h, hn, hg, r, st => by
    rw [SFields] at h
    exact scan_gap h hn r st
  | (k, v) :: l, b, h, hn, hg, r, st => by
    rw [SFields] at h
    obtain ⟨w, t, w1, w2, u, w', hw, hk, hw1, hw2, hu, hw', h⟩ := h
    rcases hk with ⟨hp, ⟨q0, rfl⟩ | ⟨hb, _⟩⟩
    · rcases h with ⟨rfl, rfl⟩ | ⟨hl, r0, hr0, rfl⟩
      · have n1 := normed_append.1 hn
        have n2 := normed_cons.1 n1.2
        have n3 := normed_append.1 n2.2
        have n4 := normed_append.1 (normed_cons.1 n3.2).2
        have n5 := normed_append.1 n4.2
        have g1 := good_append hg
        have g2 := good_cons g1.2
        have g3 := good_append g2.2
        have g4 := good_append (good_cons g3.2).2
        have g5 := good_append g4.2
        have := str_double n2.1
        subst this
        have e : text (w ++ .str true k :: (w1 ++ .colon :: (w2 ++ (u ++ w')))) ++ r =
            text w ++ ((Tok.str true k).text ++ (text w1 ++ ':' :: (text w2 ++ (text u ++ (text w' ++ r))))) := by
          simp [text_append, text_cons, Tok.text]
        rw [e, scan_gap hw n1.1, scan_str k _ _ hp g2.1.quotes.2, scan_gap hw1 n3.1, scan_colon, scan_gap hw2 n4.1, scan_val v u hu n5.1 g5.1,
          scan_gap hw' n5.2]
      · have n1 := normed_append.1 hn
        have n2 := normed_cons.1 n1.2
        have n3 := normed_append.1 n2.2
        have n4 := normed_append.1 (normed_cons.1 n3.2).2
        have n5 := normed_append.1 n4.2
        have n6 := normed_append.1 n5.2
        have g1 := good_append hg
        have g2 := good_cons g1.2
        have g3 := good_append g2.2
        have g4 := good_append (good_cons g3.2).2
        have g5 := good_append g4.2
        have g6 := good_append g5.2
        have := str_double n2.1
        subst this
        have e : text (w ++ .str true k :: (w1 ++ .colon :: (w2 ++ (u ++ (w' ++ .comma :: r0))))) ++ r =
            text w ++ ((Tok.str true k).text ++ (text w1 ++ ':' :: (text w2 ++ (text u ++ (text w' ++ ',' :: (text r0 ++ r)))))) := by
          simp [text_append, text_cons, Tok.text]
        rw [e, scan_gap hw n1.1, scan_str k _ _ hp g2.1.quotes.2, scan_gap hw1 n3.1, scan_colon, scan_gap hw2 n4.1, scan_val v u hu n5.1 g5.1,
          scan_gap hw' n6.1, scan_comma, scan_fields l r0 hr0 (normed_cons.1 n6.2).2 (good_cons g6.2).2]
    · cases hb
end

theorem normed_left {a b : List Tok} (h : Normed (a ++ b)) : Normed a := (normed_append.1 h).1

mutual
/-- A value without its last closing brackets leaves exactly these open. -/
theorem scan_cut : ∀ (v : Json.J) (u : List Tok), Sloppy false false v u → Normed u → (∀ t ∈ u, t.Good) → ∀ (u' cs : List Tok), u = u' ++ cs →
    Closers cs → ∀ (st : Str), scan .out st (text u') = .ok (.out, text cs ++ st)
  | .token t ht, u, h, hn, hg, u', cs, e, hc, st => by
    have h0 := h
    rw [Sloppy] at h; subst h
    obtain ⟨y, e1, e2⟩ := cut_after (a := []) (t := .bare t) (y := []) e rfl hc
    have e3 := List.append_eq_nil_iff.1 e2.symm
    obtain ⟨rfl, rfl⟩ := e3
    have := scan_val _ _ h0 hn hg [] st
    rw [List.append_nil] at this
    rw [e1, List.nil_append, this]
    rfl
  | .str x, u, h, hn, hg, u', cs, e, hc, st => by
    have h0 := h
    rw [Sloppy] at h; obtain ⟨_, q, rfl⟩ := h
    obtain ⟨y, e1, e2⟩ := cut_after (a := []) (t := .str q x) (y := []) e rfl hc
    have e3 := List.append_eq_nil_iff.1 e2.symm
    obtain ⟨rfl, rfl⟩ := e3
    have := scan_val _ _ h0 hn hg [] st
    rw [List.append_nil] at this
    rw [e1, List.nil_append, this]
    rfl
  | .arr l, u, h, hn, hg, u', cs, e, hc, st => by
    by_cases hne : cs = []
    · subst hne
      rw [List.append_nil] at e
      subst e
      have := scan_val _ _ h hn hg [] st
      rw [List.append_nil] at this
      rw [this]; rfl
    · rw [Sloppy] at h
      obtain ⟨b, rfl, hb⟩ := h
      obtain ⟨y, rfl, e2⟩ := cut_after (a := []) (t := .opening true) e rfl hc
      obtain ⟨cs', rfl, e3⟩ := cut_last e2 hne
      have e4 : text ([] ++ .opening true :: y) = '[' :: text y := by simp [text, Tok.text]
      rw [e4, scan_square, scan_cut_items l b hb (normed_append.1 (normed_cons.1 hn).2).1 (good_append (good_cons hg).2).1 y cs' e3 (closers_append hc).1,
        text_snoc_closing, List.append_assoc]
      rfl
  | .obj l, u, h, hn, hg, u', cs, e, hc, st => by
    by_cases hne : cs = []
    · subst hne
      rw [List.append_nil] at e
      subst e
      have := scan_val _ _ h hn hg [] st
      rw [List.append_nil] at this
      rw [this]; rfl
    · rw [Sloppy] at h
      obtain ⟨b, rfl, hb⟩ := h
      obtain ⟨y, rfl, e2⟩ := cut_after (a := []) (t := .opening false) e rfl hc
      obtain ⟨cs', rfl, e3⟩ := cut_last e2 hne
      have e4 : text ([] ++ .opening false :: y) = '{' :: text y := by simp [text, Tok.text]
      rw [e4, scan_brace, scan_cut_fields l b hb (normed_append.1 (normed_cons.1 hn).2).1 (good_append (good_cons hg).2).1 y cs' e3 (closers_append hc).1,
        text_snoc_closing, List.append_assoc]
      rfl
theorem scan_cut_items : ∀ (l : List Json.J) (b : List Tok), SItems false false l b → Normed b → (∀ t ∈ b, t.Good) → ∀ (b' cs : List Tok), b = b' ++ cs →
    Closers cs → ∀ (st : Str), scan .out st (text b') = .ok (.out, text cs ++ st)
  | [], b, h, hn, hg, b', cs, e, hc, st => by
    rw [SItems] at h
    rcases cut_gap (u := []) (w' := b) (by rw [List.nil_append]; exact e) h hc with ⟨rfl, e4⟩ | ⟨hne, _, e4⟩
    · rw [List.nil_append] at e4
      subst e4
      have := scan_gap h hn [] st
      rw [List.append_nil] at this
      rw [this]; rfl
    · exact absurd (List.append_eq_nil_iff.1 e4.symm).2 hne
  | v :: l, b, h, hn, hg, b', cs, e, hc, st => by
    have h0 := h
    rw [SItems] at h
    obtain ⟨w, u, w', hw, hu, hw', h⟩ := h
    obtain ⟨t0, u0, hu0, t1, t2, _⟩ := sloppy_head hu
    rcases h with ⟨rfl, eb⟩ | ⟨hl, r0, hr0, rfl⟩
    · have eb0 := eb
      subst eb
      have n1 := normed_append.1 hn
      have n2 := normed_append.1 n1.2
      have g1 := good_append hg
      have g2 := good_append g1.2
      rw [hu0, List.cons_append] at e
      obtain ⟨y, rfl, e2⟩ := cut_after e t2 hc
      have e3 : u ++ w' = (t0 :: y) ++ cs := by rw [hu0, List.cons_append, e2, List.cons_append]
      rcases cut_gap e3 hw' hc with ⟨rfl, e4⟩ | ⟨hne, rfl, e4⟩
      · have := scan_items [v] _ h0 hn hg [] st
        rw [List.append_nil] at this
        rw [e4, this]; rfl
      · rw [text_append, scan_gap hw n1.1]
        exact scan_cut v u hu n2.1 g2.1 (t0 :: y) cs e4 hc st
    · have n1 := normed_append.1 hn
      have n2 := normed_append.1 n1.2
      have n3 := normed_append.1 n2.2
      have g1 := good_append hg
      have g2 := good_append g1.2
      have g3 := good_append g2.2
      have e' : (w ++ (u ++ w')) ++ .comma :: r0 = b' ++ cs := by rw [← e]; simp
      obtain ⟨y, rfl, e2⟩ := cut_after e' rfl hc
      have e3 : text ((w ++ (u ++ w')) ++ .comma :: y) = text w ++ (text u ++ (text w' ++ ',' :: text y)) := by
        simp [text_append, text_cons, Tok.text]
      rw [e3, scan_gap hw n1.1, scan_val v u hu n2.1 g2.1, scan_gap hw' n3.1, scan_comma]
      exact scan_cut_items l r0 hr0 (normed_cons.1 n3.2).2 (good_cons g3.2).2 y cs e2 hc st
theorem scan_cut_fields : ∀ (l : List (Str × Json.J)) (b : List Tok), SFields false false l b → Normed b → (∀ t ∈ b, t.Good) → ∀ (b' cs : List Tok),
    b = b' ++ cs → Closers cs → ∀ (st : Str), scan .out st (text b') = .ok (.out, text cs ++ st)
  | [], b, h, hn, hg, b', cs, e, hc, st => by
    rw [SFields] at h
    rcases cut_gap (u := []) (w' := b) (by rw [List.nil_append]; exact e) h hc with ⟨rfl, e4⟩ | ⟨hne, _, e4⟩
    · rw [List.nil_append] at e4
      subst e4
      have := scan_gap h hn [] st
      rw [List.append_nil] at this
      rw [this]; rfl
    · exact absurd (List.append_eq_nil_iff.1 e4.symm).2 hne
  | (k, v) :: l, b, h, hn, hg, b', cs, e, hc, st => by
    have h0 := h
    rw [SFields] at h
    obtain ⟨w, t, w1, w2, u, w', hw, hk, hw1, hw2, hu, hw', h⟩ := h
    obtain ⟨t0, u0, hu0, t1, t2, _⟩ := sloppy_head hu
    rcases hk with ⟨hp, ⟨q0, rfl⟩ | ⟨hb, _⟩⟩
    · rcases h with ⟨rfl, rfl⟩ | ⟨hl, r0, hr0, rfl⟩
      · have n1 := normed_append.1 hn
        have n2 := normed_cons.1 n1.2
        have n3 := normed_append.1 n2.2
        have n4 := normed_append.1 (normed_cons.1 n3.2).2
        have n5 := normed_append.1 n4.2
        have g1 := good_append hg
        have g2 := good_cons g1.2
        have g3 := good_append g2.2
        have g4 := good_append (good_cons g3.2).2
        have g5 := good_append g4.2
        have := str_double n2.1
        subst this
        have e' : (w ++ .str true k :: (w1 ++ .colon :: w2)) ++ t0 :: (u0 ++ w') = b' ++ cs := by rw [← e, hu0]; simp
        obtain ⟨y, rfl, e2⟩ := cut_after e' t2 hc
        have e3 : u ++ w' = (t0 :: y) ++ cs := by rw [hu0, List.cons_append, e2, List.cons_append]
        rcases cut_gap e3 hw' hc with ⟨rfl, e4⟩ | ⟨hne, rfl, e4⟩
        · have := scan_fields [(k, v)] _ h0 hn hg [] st
          rw [List.append_nil] at this
          have e5 : w ++ .str true k :: (w1 ++ .colon :: w2) ++ t0 :: y = w ++ .str true k :: (w1 ++ .colon :: (w2 ++ (u ++ w'))) := by
            rw [e4]; simp
          rw [e5, this]; rfl
        · have e5 : text (w ++ .str true k :: (w1 ++ .colon :: w2) ++ t0 :: y) =
              text w ++ ((Tok.str true k).text ++ (text w1 ++ ':' :: (text w2 ++ text (t0 :: y)))) := by
            simp [text_append, text_cons, Tok.text]
          rw [e5, scan_gap hw n1.1, scan_str k _ _ hp g2.1.quotes.2, scan_gap hw1 n3.1, scan_colon, scan_gap hw2 n4.1]
          exact scan_cut v u hu n5.1 g5.1 (t0 :: y) cs e4 hc st
      · have n1 := normed_append.1 hn
        have n2 := normed_cons.1 n1.2
        have n3 := normed_append.1 n2.2
        have n4 := normed_append.1 (normed_cons.1 n3.2).2
        have n5 := normed_append.1 n4.2
        have n6 := normed_append.1 n5.2
        have g1 := good_append hg
        have g2 := good_cons g1.2
        have g3 := good_append g2.2
        have g4 := good_append (good_cons g3.2).2
        have g5 := good_append g4.2
        have g6 := good_append g5.2
        have := str_double n2.1
        subst this
        have e' : (w ++ .str true k :: (w1 ++ .colon :: (w2 ++ (u ++ w')))) ++ .comma :: r0 = b' ++ cs := by rw [← e]; simp
        obtain ⟨y, rfl, e2⟩ := cut_after e' rfl hc
        have e5 : text ((w ++ .str true k :: (w1 ++ .colon :: (w2 ++ (u ++ w')))) ++ .comma :: y) =
            text w ++ ((Tok.str true k).text ++ (text w1 ++ ':' :: (text w2 ++ (text u ++ (text w' ++ ',' :: text y))))) := by
          simp [text_append, text_cons, Tok.text]
        rw [e5, scan_gap hw n1.1, scan_str k _ _ hp g2.1.quotes.2, scan_gap hw1 n3.1, scan_colon, scan_gap hw2 n4.1, scan_val v u hu n5.1 g5.1,
          scan_gap hw' n6.1, scan_comma]
        exact scan_cut_fields l r0 hr0 (normed_cons.1 n6.2).2 (good_cons g6.2).2 y cs e2 hc st
    · cases hb
end

theorem fixJson_cut {v : Json.J} {u' cs : List Tok} (h : Sloppy false false v (u' ++ cs)) (hn : Normed (u' ++ cs)) (hg : ∀ t ∈ u' ++ cs, t.Good)
    (hc : Closers cs) : fixJson (text u') = .ok (text u' ++ text cs) := by
  have hs := scan_cut v _ h hn hg u' cs rfl hc []
  have hne : (text u').isEmpty = false := by
    obtain ⟨t, r, e, h1, h2, _⟩ := sloppy_head h
    obtain ⟨y, e1, _⟩ := cut_after (a := []) (t := t) (by rw [List.nil_append]; exact e.symm) h2 hc
    have hm : t ∈ u' := by rw [e1]; simp
    obtain ⟨c, s, hcs, _⟩ := head_nonspace t (hg t (List.mem_append_left _ hm)) h1
    rw [e1, List.nil_append, text_cons, hcs]
    rfl
  unfold fixJson
  rw [hne, hs]
  simp

/-! ## Repairing a document without its last closing brackets -/

theorem closers_norm {cs : List Tok} (h : Closers cs) : cs.map Tok.norm = cs := by
  have : ∀ t ∈ cs, t.norm = t := by
    intro t ht
    have := h t ht
    cases t <;> first | rfl | cases this
  induction cs with
  | nil => rfl
  | cons c cs ih =>
    rw [List.map_cons, this c List.mem_cons_self, ih (fun t ht => h t (List.mem_cons_of_mem _ ht)) (fun t ht => this t (List.mem_cons_of_mem _ ht))]

theorem nt_closers (sk : Bool) {cs : List Tok} (h : Closers cs) : noTrailing sk cs = cs := by
  induction cs generalizing sk with
  | nil => cases sk <;> rfl
  | cons c cs ih =>
    have hc := h c List.mem_cons_self
    cases c with
    | closing q => rw [nt_closing, ih false (fun t ht => h t (List.mem_cons_of_mem _ ht))]
    | _ => cases hc

/-- The last token is neither white space nor a comma. -/
def EndsSolid (ts : List Tok) : Prop := ∃ r t, ts = r ++ [t] ∧ t.isWs = false ∧ t ≠ .comma

theorem endsSolid_tail {t : Tok} {ts : List Tok} (h : EndsSolid (t :: ts)) (hne : ts ≠ []) : EndsSolid ts := by
  obtain ⟨r, x, e, h1, h2⟩ := h
  cases r with
  | nil => exact absurd (List.cons.inj e).2 hne
  | cons y r => exact ⟨r, x, (List.cons.inj e).2, h1, h2⟩

theorem skip_append {ts x : List Tok} (h : ∃ t ∈ ts, t.isWs = false) : skip (ts ++ x) = skip ts ++ x ∧ skip ts ≠ [] := by
  induction ts with
  | nil => obtain ⟨t, ht, _⟩ := h; cases ht
  | cons t ts ih =>
    by_cases hw : t.isWs = false
    · rw [List.cons_append, skip_cons _ _ hw, skip_cons _ _ hw]
      exact ⟨rfl, by simp⟩
    · cases t with
      | ws s =>
        rw [List.cons_append, skip_cons_ws, skip_cons_ws]
        apply ih
        obtain ⟨t, ht, h1⟩ := h
        rcases List.mem_cons.1 ht with rfl | ht
        · cases h1
        · exact ⟨t, ht, h1⟩
      | _ => exact absurd rfl hw

theorem closesNext_append {ts x : List Tok} (h : EndsSolid ts) : closesNext (ts ++ x) = closesNext ts := by
  obtain ⟨r, t, rfl, h1, _⟩ := h
  obtain ⟨e, hne⟩ := skip_append (ts := r ++ [t]) (x := x) ⟨t, by simp, h1⟩
  unfold closesNext
  rw [e]
  cases hs : skip (r ++ [t]) with
  | nil => exact absurd hs hne
  | cons a b => rfl

/-- What follows does not change which commas are removed. -/
theorem nt_end (ts x : List Tok) (sk : Bool) (h : EndsSolid ts) :
    noTrailing sk (ts ++ x) = noTrailing sk ts ++ noTrailing false x := by
  induction ts generalizing sk with
  | nil => obtain ⟨r, t, e, _⟩ := h; simp at e
  | cons t ts ih =>
    by_cases hne : ts = []
    · subst hne
      obtain ⟨r, y, e, h1, h2⟩ := h
      cases r with
      | cons a r => simp at e
      | nil =>
        have : t = y := by simpa using e
        subst this
        rw [List.cons_append, List.nil_append]
        cases t <;> first | (cases h1; done) | exact absurd rfl h2 | (cases sk <;> simp [noTrailing])
    · have h' := endsSolid_tail h hne
      rw [List.cons_append]
      cases t with
      | ws s =>
        cases sk
        · rw [nt_ws, nt_ws, ih false h', List.cons_append]
        · rw [noTrailing, noTrailing, ih true h']
      | comma =>
        have e : ∀ r : List Tok, noTrailing sk (.comma :: r) = noTrailing false (.comma :: r) := by intro r; cases sk <;> rfl
        rw [e, e]
        cases hc : closesNext ts with
        | true =>
          rw [nt_comma_drop _ hc, nt_comma_drop _ (by rw [closesNext_append h']; exact hc), ih true h']
        | false =>
          rw [nt_comma_keep _ hc, nt_comma_keep _ (by rw [closesNext_append h']; exact hc), ih false h', List.cons_append]
      | opening q => cases sk <;> simp [noTrailing, ih false h']
      | closing q => cases sk <;> simp [noTrailing, ih false h']
      | colon => cases sk <;> simp [noTrailing, ih false h']
      | str q s => cases sk <;> simp [noTrailing, ih false h']
      | bare s => cases sk <;> simp [noTrailing, ih false h']

theorem nt_last (ts : List Tok) (sk : Bool) (h : EndsSolid ts) : EndsSolid (noTrailing sk ts) := by
  induction ts generalizing sk with
  | nil => obtain ⟨r, t, e, _⟩ := h; simp at e
  | cons t ts ih =>
    have cons_ok : ∀ l, EndsSolid l → EndsSolid (t :: l) := by
      rintro l ⟨r, x, e, h1, h2⟩
      exact ⟨t :: r, x, by rw [e]; rfl, h1, h2⟩
    by_cases hne : ts = []
    · subst hne
      have h0 := h
      obtain ⟨r, y, e, h1, h2⟩ := h
      cases r with
      | cons a r => simp at e
      | nil =>
        have : t = y := by simpa using e
        subst this
        have : noTrailing sk [t] = [t] := by
          cases t <;> first | (cases h1; done) | exact absurd rfl h2 | (cases sk <;> simp [noTrailing])
        rw [this]; exact h0
    · have h' := endsSolid_tail h hne
      cases t with
      | ws s =>
        cases sk
        · rw [nt_ws]; exact cons_ok _ (ih false h')
        · rw [noTrailing]; exact ih true h'
      | comma =>
        have e : noTrailing sk (.comma :: ts) = noTrailing false (.comma :: ts) := by cases sk <;> rfl
        rw [e]
        cases hc : closesNext ts with
        | true => rw [nt_comma_drop _ hc]; exact ih true h'
        | false => rw [nt_comma_keep _ hc]; exact cons_ok _ (ih false h')
      | opening q => cases sk <;> exact cons_ok _ (ih false h')
      | closing q => cases sk <;> exact cons_ok _ (ih false h')
      | colon => cases sk <;> exact cons_ok _ (ih false h')
      | str q s => cases sk <;> exact cons_ok _ (ih false h')
      | bare s => cases sk <;> exact cons_ok _ (ih false h')

/-- White space and closing brackets only. -/
def Tail (x : List Tok) : Prop := ∀ t ∈ x, t.isWs = true ∨ t.isClosing = true

theorem tail_skip {x : List Tok} (h : Tail x) : (∀ k r, skip x ≠ .bare k :: r) ∧ (∀ r, skip x ≠ .colon :: r) := by
  have hs : ∀ t ∈ skip x, t.isWs = true ∨ t.isClosing = true := fun t ht => h t ((List.dropWhile_sublist _).subset ht)
  constructor
  · intro k r e
    rcases hs (.bare k) (by rw [e]; simp) with h | h <;> cases h
  · intro r e
    rcases hs .colon (by rw [e]; simp) with h | h <;> cases h

theorem startsColon_tail (ts : List Tok) {x : List Tok} (h : Tail x) : (∀ r, skip ts = .colon :: r → skip (ts ++ x) = .colon :: (r ++ x)) ∧
    (¬ startsColon ts → ¬ startsColon (ts ++ x)) := by
  by_cases hs : ∃ t ∈ ts, t.isWs = false
  · obtain ⟨e, hne⟩ := skip_append (x := x) hs
    unfold startsColon
    rw [e]
    refine ⟨fun r hr => by rw [hr]; rfl, ?_⟩
    rintro hn ⟨r, hr⟩
    cases hk : skip ts with
    | nil => exact hne hk
    | cons a b =>
      rw [hk, List.cons_append] at hr
      exact hn ⟨b, by rw [hk, (List.cons.inj hr).1]⟩
  · have hg : Gap ts := by
      intro t ht
      cases hw : t.isWs with
      | true => rfl
      | false => exact absurd ⟨t, ht, hw⟩ hs
    unfold startsColon
    rw [skip_gap _ _ hg, skip_gap_nil _ hg]
    exact ⟨fun r hr => (by cases hr), fun _ ⟨r, hr⟩ => (tail_skip h).2 r hr⟩

theorem keyAt_tail (ts : List Tok) {x : List Tok} (h : Tail x) : keyAt (ts ++ x) = (keyAt ts).map (fun p => (p.1, p.2 ++ x)) := by
  by_cases hs : ∃ t ∈ ts, t.isWs = false
  · obtain ⟨e, hne⟩ := skip_append (x := x) hs
    cases hk : skip ts with
    | nil => exact absurd hk hne
    | cons a b =>
      have e1 : skip (ts ++ x) = a :: (b ++ x) := by rw [e, hk]; rfl
      have k1 : keyAt ts = keyAt (a :: b) := by
        unfold keyAt
        rw [hk]
        have := hk
        have ha : a.isWs = false := by
          cases hw : a.isWs with
          | false => rfl
          | true =>
            have : skip ts ≠ [] := hne
            have := List.head?_dropWhile_not (p := Tok.isWs) ts
            unfold skip at hk
            rw [hk] at this
            simp [hw] at this
        rw [skip_cons _ _ ha]
      have k2 : keyAt (ts ++ x) = keyAt (a :: (b ++ x)) := by
        unfold keyAt
        rw [e1]
        have ha : a.isWs = false := by
          cases hw : a.isWs with
          | false => rfl
          | true =>
            have := List.head?_dropWhile_not (p := Tok.isWs) ts
            unfold skip at hk
            rw [hk] at this
            simp [hw] at this
        rw [skip_cons _ _ ha]
      rw [k1, k2]
      cases a with
      | bare k =>
        obtain ⟨t1, t2⟩ := startsColon_tail b h
        by_cases hb : startsColon b
        · obtain ⟨r, hr⟩ := hb
          rw [keyAt_bare k _ _ hr, keyAt_bare k _ _ (t1 r hr)]; rfl
        · rw [keyAt_noColon k _ hb, keyAt_noColon k _ (t2 hb)]; rfl
      | ws s =>
        exfalso
        have := List.head?_dropWhile_not (p := Tok.isWs) ts
        unfold skip at hk
        rw [hk] at this
        simp [Tok.isWs] at this
      | _ => rw [keyAt_other _ _ rfl (by simp), keyAt_other _ _ rfl (by simp)]; rfl
  · have hg : Gap ts := by
      intro t ht
      cases hw : t.isWs with
      | true => rfl
      | false => exact absurd ⟨t, ht, hw⟩ hs
    have k0 : keyAt ts = none := by unfold keyAt; rw [skip_gap_nil _ hg]
    rw [keyAt_gap _ _ hg, k0]
    unfold keyAt
    split
    · next k r hk => exact absurd hk ((tail_skip h).1 k r)
    · rfl

theorem qb_tail_only {x : List Tok} (h : Tail x) : qb x = x := by
  induction x with
  | nil => rfl
  | cons t x ih =>
    have ht : t.trigger = false := by
      rcases h t List.mem_cons_self with h | h <;> (cases t <;> first | rfl | cases h)
    rw [qb_plain _ _ ht, ih (fun u hu => h u (List.mem_cons_of_mem _ hu))]

theorem qb_tail {x : List Tok} (hx : Tail x) (m : Nat) : ∀ ts : List Tok, ts.length ≤ m → qb (ts ++ x) = qb ts ++ x := by
  induction m with
  | zero =>
    intro ts h
    cases ts with
    | nil => exact qb_tail_only hx
    | cons t ts => simp at h
  | succ m ih =>
    intro ts h
    cases ts with
    | nil => exact qb_tail_only hx
    | cons t ts =>
      simp only [List.length_cons] at h
      rw [List.cons_append]
      cases ht : t.trigger with
      | false => rw [qb_plain _ _ ht, qb_plain _ _ ht, ih ts (by omega), List.cons_append]
      | true =>
        cases hk : keyAt ts with
        | none =>
          rw [qb_none _ _ hk, qb_none _ _ (by rw [keyAt_tail ts hx, hk]; rfl), ih ts (by omega), List.cons_append]
        | some p =>
          obtain ⟨k, r⟩ := p
          obtain ⟨_, ⟨pre, e⟩, _⟩ := keyAt_suffix ts k r hk
          have hl : r.length ≤ ts.length := by rw [e]; simp
          rw [qb_some _ _ k r ht hk, qb_some _ _ k (r ++ x) ht (by rw [keyAt_tail ts hx, hk]; rfl), ih r (by omega)]
          simp

theorem qb_last (m : Nat) : ∀ ts : List Tok, ts.length ≤ m → (∃ r t, ts = r ++ [t] ∧ t.isWs = false) → ∃ r t, qb ts = r ++ [t] ∧ t.isWs = false := by
  induction m with
  | zero =>
    intro ts h ⟨r, t, e, _⟩
    subst e
    simp at h
  | succ m ih =>
    intro ts h hl
    cases ts with
    | nil => obtain ⟨r, t, e, _⟩ := hl; simp at e
    | cons t ts =>
      simp only [List.length_cons] at h
      have plain : ∀ q, (∀ r x, ts = r ++ [x] → x.isWs = false → ∃ r x, q = r ++ [x] ∧ x.isWs = false) → (ts = [] → q = []) →
          ∃ r x, t :: q = r ++ [x] ∧ x.isWs = false := by
        intro q h1 h2
        obtain ⟨r, x, e, hx⟩ := hl
        cases r with
        | nil =>
          have e' := List.cons.inj e
          rw [h2 e'.2, e'.1]
          exact ⟨[], x, rfl, hx⟩
        | cons y r =>
          obtain ⟨r', x', e', hx'⟩ := h1 r x (List.cons.inj e).2 hx
          exact ⟨t :: r', x', by rw [e']; rfl, hx'⟩
      have step : ∃ r x, t :: qb ts = r ++ [x] ∧ x.isWs = false :=
        plain (qb ts) (fun r x e hx => ih ts (by omega) ⟨r, x, e, hx⟩) (fun e => by rw [e]; rfl)
      cases ht : t.trigger with
      | false => rw [qb_plain _ _ ht]; exact step
      | true =>
        cases hk : keyAt ts with
        | none => rw [qb_none _ _ hk]; exact step
        | some p =>
          obtain ⟨k, r⟩ := p
          obtain ⟨_, ⟨pre, e⟩, _⟩ := keyAt_suffix ts k r hk
          have hlen : r.length ≤ ts.length := by rw [e]; simp
          rw [qb_some _ _ k r ht hk]
          by_cases hr : r = []
          · subst hr
            exact ⟨[t, .str true k], .colon, rfl, rfl⟩
          · obtain ⟨r1, x, e1, hx⟩ := hl
            have : ∃ r2, r = r2 ++ [x] := by
              have e2 : (t :: pre) ++ r = r1 ++ [x] := by rw [← e1, e]; simp
              obtain ⟨r2, y, rfl⟩ : ∃ r2 y, r = r2 ++ [y] := ⟨r.dropLast, r.getLast hr, (List.dropLast_concat_getLast hr).symm⟩
              rw [← List.append_assoc] at e2
              have := (List.append_inj' e2 rfl).2
              exact ⟨r2, by rw [this]⟩
            obtain ⟨r2, er⟩ := this
            obtain ⟨r3, x3, e3, hx3⟩ := ih r (by omega) ⟨r2, x, er, hx⟩
            exact ⟨t :: .str true k :: .colon :: r3, x3, by rw [e3]; rfl, hx3⟩

theorem endsSolid_norm {u : List Tok} (h : EndsSolid u) : EndsSolid (u.map Tok.norm) := by
  obtain ⟨r, t, rfl, h1, h2⟩ := h
  refine ⟨r.map Tok.norm, t.norm, by simp, ?_, ?_⟩ <;> (cases t <;> first | rfl | exact h1 | (intro e; cases e; done) | exact h2)

/-- The tokens of a document without its last closing brackets, repaired: with them it is a JSON document. -/
theorem repair_cut {v : Json.J} {w u' cs w' : List Tok} (hw : Gap w) (hu : Sloppy true true v (u' ++ cs)) (hw' : Gap w') (hc : Closers cs)
    (hs : EndsSolid u') (hg : ∀ t ∈ w ++ (u' ++ w'), t.Good) :
    ∃ y, Sloppy false false v (y ++ cs) ∧ Normed (y ++ cs) ∧ (∀ t ∈ y ++ cs, t.Good) ∧ repair (w ++ (u' ++ w')) = y := by
  obtain ⟨u1, hu1, hm1, he1⟩ := nt_val v _ (sloppy_norm v _ hu)
  have hn1 : Normed u1 := fun t ht => normed_map _ t (hm1 t ht)
  obtain ⟨u2, hu2, hn2, he2⟩ := qb_val v u1 hu1 hn1
  have hsn := endsSolid_norm hs
  have a1 : u1 = noTrailing false (u'.map Tok.norm) ++ cs := by
    have h1 := he1 []
    rw [List.append_nil, show noTrailing false [] = [] from rfl, List.append_nil, List.map_append, closers_norm hc] at h1
    rw [← h1, nt_end _ _ _ hsn, nt_closers false hc]
  have hct : Tail cs := fun t ht => Or.inr (hc t ht)
  have a2 : u2 = qb (noTrailing false (u'.map Tok.norm)) ++ cs := by
    have h1 := he2 []
    rw [List.append_nil, show qb [] = [] from rfl, List.append_nil, a1, qb_tail hct _ _ (Nat.le_refl _)] at h1
    exact h1.symm
  have e1 : noTrailing false ((w ++ (u' ++ w')).map Tok.norm) = w.map Tok.norm ++ (noTrailing false (u'.map Tok.norm) ++ w'.map Tok.norm) := by
    have hwn : noTrailing false (w'.map Tok.norm) = w'.map Tok.norm := by
      have := nt_gap (w'.map Tok.norm) [] (gap_norm hw')
      rw [List.append_nil] at this
      rw [this]
      simp [noTrailing]
    rw [List.map_append, List.map_append, nt_gap _ _ (gap_norm hw), nt_end _ _ _ hsn, hwn]
  have hwt : Tail (w'.map Tok.norm) := fun t ht => Or.inl (gap_norm hw' t ht)
  have e2 : qb (w.map Tok.norm ++ (noTrailing false (u'.map Tok.norm) ++ w'.map Tok.norm)) =
      w.map Tok.norm ++ (qb (noTrailing false (u'.map Tok.norm)) ++ w'.map Tok.norm) := by
    rw [qb_gap _ _ (gap_norm hw), qb_tail hwt _ _ (Nat.le_refl _)]
  have e0 : quoteBare (noTrailing false ((w ++ (u' ++ w')).map Tok.norm)).length (noTrailing false ((w ++ (u' ++ w')).map Tok.norm)) =
      qb (noTrailing false ((w ++ (u' ++ w')).map Tok.norm)) := rfl
  have e3 : repair (w ++ (u' ++ w')) = qb (noTrailing false (u'.map Tok.norm)) := by
    unfold repair
    rw [e0, e1, e2]
    refine trim_gap (gap_norm hw) (gap_norm hw') ?_ ?_
    · obtain ⟨t, r, e, h1, h2, _⟩ := sloppy_head hu2
      obtain ⟨y, e5, _⟩ := cut_after (a := []) (t := t) (by rw [List.nil_append, ← e]; exact a2) h2 hc
      exact ⟨t, y, by rw [e5]; rfl, h1⟩
    · obtain ⟨r, t, e, h1, _⟩ := nt_last _ false hsn
      exact qb_last _ _ (Nat.le_refl _) ⟨r, t, e, h1⟩
  refine ⟨qb (noTrailing false (u'.map Tok.norm)), a2 ▸ hu2, a2 ▸ hn2, ?_, e3⟩
  have g0 : ∀ t ∈ noTrailing false ((w ++ (u' ++ w')).map Tok.norm), t.Good := by
    intro t ht
    obtain ⟨x, hx, rfl⟩ := List.mem_map.1 (noTrailing_mem _ _ t ht)
    exact good_norm x (hg x hx)
  have g1 := good_quoteBare (noTrailing false ((w ++ (u' ++ w')).map Tok.norm)).length _ g0
  rw [e0, e1, e2] at g1
  intro t ht
  rcases List.mem_append.1 ht with h | h
  · exact g1 t (by simp [h])
  · have := hc t h
    cases t <;> first | trivial | cases this

/-! ## C230 -/

theorem returns_shape {v : Json.J} {j : J Json.J} (h : Returns v j) : shape v = j ∧ Structured j := by
  cases h with
  | dict l => exact ⟨rfl, trivial⟩
  | list ls =>
    refine ⟨?_, ?_⟩
    · simp only [shape, List.map_map]
      rfl
    · intro o ho
      obtain ⟨l, _, rfl⟩ := List.mem_map.1 ho
      simp

/-- **C230.**  A document written sloppily – quotes of either kind, bare keys, commas before closing brackets, any white space – is read as the
value it denotes.  `Tokenised` says which texts are considered. -/
theorem C230_read {v : Json.J} {j : J Json.J} {w u w' : List Tok} (hw : Gap w) (hu : Sloppy true true v u) (hw' : Gap w')
    (ht : Tokenised (w ++ (u ++ w'))) (hj : Returns v j) : fuzzyRead (text (w ++ (u ++ w'))) = .ok j := by
  obtain ⟨hsh, hst⟩ := returns_shape hj
  have hrep : loadsJson (text (repair (w ++ (u ++ w')))) = some j := by
    unfold loadsJson
    rw [repair_loads hw hu hw' ht.good]
    exact congrArg some hsh
  obtain ⟨t, r, e, h1, _⟩ := sloppy_head hu
  have hne : ∃ t ∈ w ++ (u ++ w'), t.isWs = false := ⟨t, by rw [e]; simp, h1⟩
  rcases loads_sloppy hw hu hw' ht.good with hl | hl
  · exact (C217_repaired_partial loadsJson _ ht hne (by unfold loadsJson; rw [hl]; rfl)).1 j hrep hst
  · have hlj : loadsJson (text (w ++ (u ++ w'))) = some j := by
      unfold loadsJson
      rw [hl]
      exact congrArg some hsh
    unfold fuzzyRead
    refine (C71_plain_json loadsJson ?_ _ j hlj).1 hst
    intro s hs
    unfold loadsJson Json.loads
    rw [readVal_only_white _ _ (fun c hc => (isSpace_iff c).1 (List.all_eq_true.1 hs c hc))]
    rfl

/-- **C230.**  The same for a document whose last closing brackets are missing: `u' ++ cs` is the document and `cs` are the brackets.  The text
must not stop at a comma. -/
theorem C230_unclosed {v : Json.J} {j : J Json.J} {w u' cs w' : List Tok} (hw : Gap w) (hu : Sloppy true true v (u' ++ cs)) (hw' : Gap w')
    (hc : ∀ t ∈ cs, t.isClosing = true) (hs : ∃ r t, u' = r ++ [t] ∧ t.isWs = false ∧ t ≠ .comma) (ht : Tokenised (w ++ (u' ++ w')))
    (hj : Returns v j) : fuzzyRead (text (w ++ (u' ++ w'))) = .ok j := by
  by_cases hne : cs = []
  · subst hne
    rw [List.append_nil] at hu
    exact C230_read hw hu hw' ht hj
  · obtain ⟨hsh, hst⟩ := returns_shape hj
    obtain ⟨y, h1, h2, h3, e⟩ := repair_cut hw hu hw' hc hs ht.good
    obtain ⟨r, t, e', t1, _⟩ := hs
    have hl := loads_cut hw hu hw' ht.good hne hc
    have hl2 : Json.loads (text y) = none := by
      have := loads_cut (w := []) (w' := []) gap_nil h1 gap_nil (fun t ht => h3 t (by simp at ht; simp [ht])) hne hc
      simpa using this
    have hl3 : Json.loads (text y ++ text cs) = some v := by
      rw [Json.C218_grammar]
      exact ⟨[], text (y ++ cs), [], Json.allWs_nil, doc_val v _ h1 h2 h3, Json.allWs_nil, by rw [text_append]; simp⟩
    refine (C217_repaired_partial loadsJson _ ht ⟨t, by rw [e']; simp, t1⟩ (by unfold loadsJson; rw [hl]; rfl)).2 (text cs) j ?_ ?_ ?_ ?_ hst
    · intro c hcm
      obtain ⟨t, ht, hcm⟩ := List.mem_flatMap.1 hcm
      have := hc t ht
      cases t with
      | closing q =>
        cases q
        · left; simpa [Tok.text] using hcm
        · right; simpa [Tok.text] using hcm
      | _ => cases this
    · rw [e]; exact fixJson_cut h1 h2 h3 hc
    · rw [e]; unfold loadsJson; rw [hl2]; rfl
    · rw [e]; unfold loadsJson; rw [hl3]; exact congrArg some hsh

/-! ## Texts with white space after `{`, `,` and `:` -/

/-- White space or a closing bracket. -/
def Soft (x : Tok) : Prop := x.isWs = true ∨ x.isClosing = true

/-- White space (or a closing bracket) comes after every comma and colon, and after every `{` that begins a list item which is not the first: one
that comes after a comma, with only white space and `[` between. -/
structure Spaced (ts : List Tok) : Prop where
  after : ∀ pre t x post, ts = pre ++ t :: x :: post → t = .comma ∨ t = .colon → Soft x
  braces : ∀ pre w ops x post, ts = pre ++ .comma :: (w ++ (ops ++ .opening false :: x :: post)) → Gap w → (∀ o ∈ ops, o = .opening true) → Soft x

/-- The next token, if any, is white space or a closing bracket. -/
def HeadOk (r : List Tok) : Prop := ∀ x, r.head? = some x → Soft x

/-- The first `{` after some `[` is followed by white space or a closing bracket. -/
def LeadOk : List Tok → Prop
  | .opening true :: r => LeadOk r
  | .opening false :: r => HeadOk r
  | _ => True

/-- `Spaced`, by recursion on the text. -/
def SpR : List Tok → Prop
  | [] => True
  | t :: r => (t = .comma ∨ t = .colon → HeadOk r) ∧ (t = .comma → LeadOk (skip r)) ∧ SpR r

theorem leadOk_of (X : List Tok) (h : ∀ ops x post, X = ops ++ .opening false :: x :: post → (∀ o ∈ ops, o = .opening true) → Soft x) : LeadOk X := by
  induction X with
  | nil => exact trivial
  | cons t r ih =>
    cases t with
    | opening q =>
      cases q with
      | true =>
        refine ih (fun ops x post e ho => h (.opening true :: ops) x post (by rw [e]; rfl) ?_)
        intro o hm
        rcases List.mem_cons.1 hm with rfl | hm
        · rfl
        · exact ho o hm
      | false =>
        intro x hx
        cases r with
        | nil => cases hx
        | cons y r => cases hx; exact h [] x r rfl (fun o ho => by cases ho)
    | _ => exact trivial

theorem gap_skip (r : List Tok) : ∃ w, Gap w ∧ r = w ++ skip r := by
  induction r with
  | nil => exact ⟨[], gap_nil, rfl⟩
  | cons t r ih =>
    obtain ⟨w, hw, e⟩ := ih
    cases t with
    | ws s =>
      refine ⟨.ws s :: w, ?_, ?_⟩
      · intro u hu
        rcases List.mem_cons.1 hu with rfl | hu
        · rfl
        · exact hw u hu
      · rw [skip_cons_ws, List.cons_append, ← e]
    | _ => exact ⟨[], gap_nil, by rw [skip_cons _ _ rfl]; rfl⟩

theorem spR_of {ts : List Tok} (h : Spaced ts) : SpR ts := by
  induction ts with
  | nil => exact trivial
  | cons t r ih =>
    refine ⟨?_, ?_, ih ⟨?_, ?_⟩⟩
    · intro ht x hx
      cases r with
      | nil => cases hx
      | cons y r => cases hx; exact h.after [] t x r rfl ht
    · intro ht
      subst ht
      obtain ⟨w, hw, e⟩ := gap_skip r
      refine leadOk_of _ (fun ops x post e' ho => h.braces [] w ops x post ?_ hw ho)
      rw [← e', ← e]; rfl
    · exact fun pre u x post e => h.after (t :: pre) u x post (by rw [e]; rfl)
    · exact fun pre w ops x post e => h.braces (t :: pre) w ops x post (by rw [e]; rfl)

theorem spR_suffix {a b : List Tok} (h : SpR (a ++ b)) : SpR b := by
  induction a with
  | nil => exact h
  | cons t a ih => exact ih h.2.2

theorem soft_norm {x : Tok} (h : Soft x) : Soft x.norm := by
  cases x <;> first | exact h | (rcases h with h | h <;> cases h)

theorem headOk_norm {r : List Tok} (h : HeadOk r) : HeadOk (r.map Tok.norm) := by
  intro x hx
  cases r with
  | nil => cases hx
  | cons y r => cases hx; exact soft_norm (h y rfl)

theorem skip_norm (r : List Tok) : skip (r.map Tok.norm) = (skip r).map Tok.norm := by
  induction r with
  | nil => rfl
  | cons t r ih =>
    cases t with
    | ws s => rw [skip_cons_ws, ← ih]; rfl
    | _ => rfl

theorem leadOk_norm {r : List Tok} (h : LeadOk r) : LeadOk (r.map Tok.norm) := by
  induction r with
  | nil => exact trivial
  | cons t r ih =>
    cases t with
    | opening q =>
      cases q with
      | true => exact ih h
      | false => exact headOk_norm h
    | _ => exact trivial

theorem spR_norm {ts : List Tok} (h : SpR ts) : SpR (ts.map Tok.norm) := by
  induction ts with
  | nil => exact trivial
  | cons t r ih =>
    refine ⟨fun ht => headOk_norm (h.1 ?_), fun ht => ?_, ih h.2.2⟩
    · cases t <;> first | exact Or.inl rfl | exact Or.inr rfl | (rcases ht with ht | ht <;> cases ht)
    · rw [skip_norm]
      refine leadOk_norm (h.2.1 ?_)
      cases t <;> first | rfl | cases ht

theorem headOk_nt {r : List Tok} (h : HeadOk r) : HeadOk (noTrailing false r) := by
  cases r with
  | nil => intro x hx; simp [noTrailing] at hx
  | cons y r =>
    have hy := h y rfl
    intro x hx
    cases y with
    | ws s => cases hx; exact hy
    | closing q => cases hx; exact hy
    | _ => rcases hy with h | h <;> cases h

theorem nt_closes (r : List Tok) (h : closesNext r = true) : ∃ q r', noTrailing true r = .closing q :: r' := by
  induction r with
  | nil => cases h
  | cons t r ih =>
    cases t with
    | ws s => exact ih h
    | closing q => exact ⟨q, _, rfl⟩
    | _ => cases h

theorem leadOk_nt {r : List Tok} (h : LeadOk r) : LeadOk (noTrailing false r) := by
  induction r with
  | nil => exact trivial
  | cons t r ih =>
    cases t with
    | opening q =>
      cases q with
      | true => exact ih h
      | false => exact headOk_nt h
    | comma =>
      cases hc : closesNext r with
      | true =>
        obtain ⟨q, r', e⟩ := nt_closes r hc
        rw [nt_comma_drop _ hc, e]
        exact trivial
      | false => rw [nt_comma_keep _ hc]; exact trivial
    | _ => exact trivial

theorem leadOk_skip_nt {r : List Tok} (h : LeadOk (skip r)) : LeadOk (skip (noTrailing false r)) := by
  obtain ⟨w, hw, e⟩ := gap_skip r
  rw [e, nt_gap _ _ hw, skip_gap _ _ hw]
  have h1 := leadOk_nt h
  cases hk : noTrailing false (skip r) with
  | nil => exact trivial
  | cons t x =>
    rw [hk] at h1
    cases t with
    | ws s =>
      exfalso
      cases hs : skip r with
      | nil => rw [hs] at hk; simp [noTrailing] at hk
      | cons y z =>
        have hy : y.isWs = false := by
          cases hy : y.isWs with
          | false => rfl
          | true =>
            cases y with
            | ws s' =>
              exfalso
              have : ∀ r : List Tok, ∀ s' z, skip r = .ws s' :: z → False := by
                intro r
                induction r with
                | nil => intro _ _ h; cases h
                | cons a r ih => intro s' z h; cases a <;> first | exact ih _ _ h | cases h
              exact this r s' z hs
            | _ => cases hy
        rw [hs] at hk
        cases y with
        | comma =>
          cases hc : closesNext z with
          | true =>
            obtain ⟨q, r', e⟩ := nt_closes z hc
            rw [nt_comma_drop _ hc, e] at hk
            cases hk
          | false => rw [nt_comma_keep _ hc] at hk; cases hk
        | ws s' => cases hy
        | _ => cases hk
    | _ => exact h1

theorem spR_nt (ts : List Tok) (sk : Bool) (h : SpR ts) : SpR (noTrailing sk ts) := by
  induction ts generalizing sk with
  | nil => cases sk <;> exact trivial
  | cons t ts ih =>
    have h' := h.2.2
    have keep : SpR (t :: noTrailing false ts) :=
      ⟨fun ht => headOk_nt (h.1 ht), fun ht => leadOk_skip_nt (h.2.1 ht), ih false h'⟩
    cases t with
    | ws s =>
      cases sk
      · exact keep
      · rw [noTrailing]; exact ih true h'
    | comma =>
      have e : noTrailing sk (.comma :: ts) = noTrailing false (.comma :: ts) := by cases sk <;> rfl
      rw [e]
      cases hc : closesNext ts with
      | true => rw [nt_comma_drop _ hc]; exact ih true h'
      | false => rw [nt_comma_keep _ hc]; exact keep
    | opening q => cases sk <;> exact keep
    | closing q => cases sk <;> exact keep
    | colon => cases sk <;> exact keep
    | str q s => cases sk <;> exact keep
    | bare s => cases sk <;> exact keep

/-- No colon up to the next white space or string, nor just after that white space. -/
def NoCol (r : List Tok) : Prop := .colon ∉ r.takeWhile Tok.solid ∧ ¬ startsColon (r.dropWhile Tok.solid)

theorem noCol_solid {t : Tok} {r : List Tok} (h : NoCol r) (ht : t.solid = true) (hc : t ≠ .colon) : NoCol (t :: r) := by
  unfold NoCol
  rw [List.takeWhile_cons_of_pos ht, List.dropWhile_cons_of_pos ht]
  refine ⟨fun hm => ?_, h.2⟩
  rcases List.mem_cons.1 hm with e | hm
  · exact hc e.symm
  · exact h.1 hm

theorem noCol_stop {t : Tok} {r : List Tok} (ht : t.solid = false) (h : ¬ startsColon (t :: r)) : NoCol (t :: r) := by
  unfold NoCol
  rw [List.takeWhile_cons_of_neg (by simp [ht]), List.dropWhile_cons_of_neg (by simp [ht])]
  exact ⟨fun hm => (by cases hm), h⟩

theorem noCol_not_starts {r : List Tok} (h : NoCol r) : ¬ startsColon r := by
  intro hst
  obtain ⟨x, hx⟩ := hst
  cases r with
  | nil => cases hx
  | cons t r =>
    cases t with
    | ws s =>
      refine h.2 ⟨x, ?_⟩
      rw [List.dropWhile_cons_of_neg (by simp [Tok.solid])]
      exact hx
    | colon => exact h.1 (by rw [List.takeWhile_cons_of_pos rfl]; exact List.mem_cons_self)
    | _ => rw [skip_cons _ _ rfl] at hx; cases hx

theorem startsColon_gap (w r : List Tok) (hw : Gap w) : startsColon (w ++ r) ↔ startsColon r := by
  unfold startsColon
  rw [skip_gap _ _ hw]

theorem noCol_gap {w r : List Tok} (hw : Gap w) (h1 : ¬ startsColon r) (h2 : w = [] → NoCol r) : NoCol (w ++ r) := by
  cases w with
  | nil => exact h2 rfl
  | cons t w =>
    have hs : ¬ startsColon (t :: w ++ r) := fun hs => h1 ((startsColon_gap _ _ hw).1 hs)
    obtain ⟨⟨s, rfl⟩, _⟩ := gap_cons hw
    exact noCol_stop rfl hs

theorem noCol_gap' {w r : List Tok} (hw : Gap w) (h : NoCol r) : NoCol (w ++ r) := noCol_gap hw (noCol_not_starts h) (fun _ => h)

theorem noCol_nil : NoCol [] := ⟨fun h => (by cases h), fun ⟨_, h⟩ => (by cases h)⟩

/-- Keys may follow every `{` and `,`. -/
def AllKeys : List Tok → Prop
  | [] => True
  | t :: r => (t.trigger = true → KeyOk r) ∧ AllKeys r

theorem allKeys_spec (pre : List Tok) (t : Tok) (post : List Tok) (h : AllKeys (pre ++ t :: post)) (ht : t.trigger = true) : KeyOk post := by
  induction pre with
  | nil => exact h.1 ht
  | cons x pre ih => exact ih h.2

theorem allKeys_plain {t : Tok} {r : List Tok} (h : AllKeys r) (ht : t.trigger = false) : AllKeys (t :: r) :=
  ⟨fun h' => (by rw [ht] at h'; cases h'), h⟩

theorem allKeys_gap {w r : List Tok} (hw : Gap w) (h : AllKeys r) : AllKeys (w ++ r) := by
  induction w with
  | nil => exact h
  | cons t w ih =>
    obtain ⟨⟨s, rfl⟩, hw'⟩ := gap_cons hw
    exact allKeys_plain (ih hw') rfl

theorem keyOk_noCol {r : List Tok} (h : NoCol (skip r)) : KeyOk r := Or.inl h

theorem starts_items {tr bk : Bool} {l : List Json.J} {b : List Tok} (h : SItems tr bk l b) (q : Bool) (r : List Tok) :
    ¬ startsColon (b ++ .closing q :: r) := by
  cases l with
  | nil => rw [SItems] at h; exact not_startsColon b _ _ h rfl (by simp)
  | cons v l =>
    rw [SItems] at h
    obtain ⟨w, u, w', hw, hu, hw', h⟩ := h
    obtain ⟨t, x, rfl, h1, h2, h3, _⟩ := sloppy_head hu
    rcases h with ⟨_, rfl⟩ | ⟨_, _, _, rfl⟩ <;>
      · rw [List.append_assoc, List.cons_append, List.cons_append]
        exact not_startsColon w _ _ hw h1 h3

theorem starts_fields {tr bk : Bool} {l : List (Str × Json.J)} {b : List Tok} (h : SFields tr bk l b) (q : Bool) (r : List Tok) :
    ¬ startsColon (b ++ .closing q :: r) := by
  cases l with
  | nil => rw [SFields] at h; exact not_startsColon b _ _ h rfl (by simp)
  | cons kv l =>
    obtain ⟨k, v⟩ := kv
    rw [SFields] at h
    obtain ⟨w, t, w1, w2, u, w', hw, hk, hw1, hw2, hu, hw', h⟩ := h
    obtain ⟨h1, h2, h3, _⟩ := keyTok_head hk
    rcases h with ⟨_, rfl⟩ | ⟨_, _, _, rfl⟩ <;>
      · rw [List.append_assoc, List.cons_append]
        exact not_startsColon w _ _ hw h1 h3

/-- After `{` or `,`, when white space or a closing bracket follows. -/
theorem noCol_opener {t : Tok} {X : List Tok} (h1 : t.trigger = true) (hs : ¬ startsColon X)
    (hx : ∀ x, X.head? = some x → x.isWs = true ∨ (x.isClosing = true ∧ NoCol X.tail)) : NoCol (t :: X) := by
  have hsol : t.solid = true := by cases t <;> first | rfl | cases h1
  have hc : t ≠ .colon := by intro e; rw [e] at h1; cases h1
  refine noCol_solid ?_ hsol hc
  cases X with
  | nil => exact noCol_nil
  | cons x X =>
    rcases hx x rfl with h | ⟨h, h'⟩
    · cases x with
      | ws s => exact noCol_stop rfl hs
      | _ => cases h
    · cases x with
      | closing q => exact noCol_solid h' rfl (by simp)
      | _ => cases h

/-- The tokens before a closing bracket. -/
theorem closing_head {tr bk : Bool} {l : List Json.J} {b : List Tok} (h : SItems tr bk l b) (q : Bool) (r : List Tok) (x : Tok)
    (hx : (b ++ .closing q :: r).head? = some x) (hc : x.isClosing = true) : b = [] := by
  cases b with
  | nil => rfl
  | cons y b =>
    exfalso
    cases hx
    cases l with
    | nil =>
      rw [SItems] at h
      have := h x List.mem_cons_self
      cases x <;> first | (cases this; done) | (cases hc; done)
    | cons v l =>
      rw [SItems] at h
      obtain ⟨w, u, w', hw, hu, hw', h⟩ := h
      obtain ⟨t, z, rfl, h1, h2, h3, _⟩ := sloppy_head hu
      cases w with
      | nil => rcases h with ⟨_, e⟩ | ⟨_, _, _, e⟩ <;> (have := (List.cons.inj e).1; rw [this, h2] at hc; cases hc)
      | cons s w =>
        obtain ⟨⟨s', rfl⟩, _⟩ := gap_cons hw
        rcases h with ⟨_, e⟩ | ⟨_, _, _, e⟩ <;> (have := (List.cons.inj e).1; rw [this] at hc; cases hc)

theorem closing_head_fields {tr bk : Bool} {l : List (Str × Json.J)} {b : List Tok} (h : SFields tr bk l b) (q : Bool) (r : List Tok) (x : Tok)
    (hx : (b ++ .closing q :: r).head? = some x) (hc : x.isClosing = true) : b = [] := by
  cases b with
  | nil => rfl
  | cons y b =>
    exfalso
    cases hx
    cases l with
    | nil =>
      rw [SFields] at h
      have := h x List.mem_cons_self
      cases x <;> first | (cases this; done) | (cases hc; done)
    | cons kv l =>
      obtain ⟨k, v⟩ := kv
      rw [SFields] at h
      obtain ⟨w, t, w1, w2, u, w', hw, hk, hw1, hw2, hu, hw', h⟩ := h
      obtain ⟨h1, h2, h3, _⟩ := keyTok_head hk
      cases w with
      | nil => rcases h with ⟨_, e⟩ | ⟨_, _, _, e⟩ <;> (have := (List.cons.inj e).1; rw [this, h2] at hc; cases hc)
      | cons s w =>
        obtain ⟨⟨s', rfl⟩, _⟩ := gap_cons hw
        rcases h with ⟨_, e⟩ | ⟨_, _, _, e⟩ <;> (have := (List.cons.inj e).1; rw [this] at hc; cases hc)

/-- A key of a spaced object. -/
theorem keyOk_fields {l : List (Str × Json.J)} {b : List Tok} (h : SFields false true l b) (q : Bool) (r : List Tok)
    (hs : SpR (b ++ .closing q :: r)) (hr : NoCol r) : KeyOk (b ++ .closing q :: r) := by
  cases l with
  | nil =>
    rw [SFields] at h
    refine keyOk_noCol ?_
    rw [skip_gap _ _ h, skip_cons _ _ rfl]
    exact noCol_solid hr rfl (by simp)
  | cons kv l =>
    obtain ⟨k, v⟩ := kv
    rw [SFields] at h
    obtain ⟨w, t, w1, w2, u, w', hw, hk, hw1, hw2, hu, hw', h⟩ := h
    obtain ⟨t0, z, hz, h1, h2, h3, _⟩ := sloppy_head hu
    obtain ⟨R, eR⟩ : ∃ R, b ++ .closing q :: r = w ++ t :: (w1 ++ .colon :: (w2 ++ (u ++ R))) := by
      rcases h with ⟨_, rfl⟩ | ⟨_, y, _, rfl⟩
      · exact ⟨w' ++ .closing q :: r, by simp⟩
      · exact ⟨w' ++ .comma :: (y ++ .closing q :: r), by simp⟩
    rw [eR] at hs ⊢
    unfold KeyOk
    rw [skip_gap _ _ hw]
    rcases hk with ⟨hp, ⟨q0, rfl⟩ | ⟨_, rfl⟩⟩
    · left
      rw [skip_cons _ _ rfl]
      exact noCol_stop rfl (fun ⟨x, hx⟩ => by rw [skip_cons _ _ rfl] at hx; cases hx)
    · rw [skip_cons _ _ rfl]
      have hcol : ¬ startsColon (w2 ++ (u ++ R)) := by
        rw [hz, List.cons_append]
        exact not_startsColon w2 _ _ hw2 h1 h3
      have hs2 : SpR (.colon :: (w2 ++ (u ++ R))) := spR_suffix (a := w ++ .bare k :: w1) (by simpa using hs)
      cases w1 with
      | nil =>
        right; left
        refine ⟨k, ?_⟩
        rw [List.nil_append, List.takeWhile_cons_of_pos rfl, List.takeWhile_cons_of_pos rfl, List.dropWhile_cons_of_pos rfl, List.dropWhile_cons_of_pos rfl]
        cases w2 with
        | nil =>
          exfalso
          rcases hs2.1 (Or.inr rfl) t0 (by rw [hz]; rfl) with h | h
          · rw [h1] at h; cases h
          · rw [h2] at h; cases h
        | cons s w2 =>
          obtain ⟨⟨s', rfl⟩, _⟩ := gap_cons hw2
          rw [List.cons_append, List.takeWhile_cons_of_neg (by simp [Tok.solid]), List.dropWhile_cons_of_neg (by simp [Tok.solid])]
          exact ⟨rfl, hcol⟩
      | cons s w1 =>
        right; right
        obtain ⟨⟨s', rfl⟩, hw1'⟩ := gap_cons hw1
        refine ⟨k, ?_⟩
        rw [List.takeWhile_cons_of_pos rfl, List.dropWhile_cons_of_pos rfl, List.cons_append, List.takeWhile_cons_of_neg (by simp [Tok.solid]),
          List.dropWhile_cons_of_neg (by simp [Tok.solid])]
        refine ⟨rfl, w2 ++ (u ++ R), ?_⟩
        rw [skip_cons_ws, skip_gap _ _ hw1', skip_cons _ _ rfl]

mutual
theorem keys_val : ∀ (v : Json.J) (u : List Tok), Sloppy false true v u → ∀ r, SpR (u ++ r) → NoCol r → AllKeys r →
    (LeadOk (u ++ r) → NoCol (u ++ r)) ∧ AllKeys (u ++ r)
  | .token t ht, u, h, r, hs, hr, ha => by
    rw [Sloppy] at h; subst h
    exact ⟨fun _ => noCol_solid hr rfl (by simp), allKeys_plain ha rfl⟩
  | .str x, u, h, r, hs, hr, ha => by
    rw [Sloppy] at h; obtain ⟨_, q, rfl⟩ := h
    exact ⟨fun _ => noCol_stop rfl (fun ⟨x, hx⟩ => by rw [skip_cons _ _ rfl] at hx; cases hx), allKeys_plain ha rfl⟩
  | .arr l, u, h, r, hs, hr, ha => by
    rw [Sloppy] at h
    obtain ⟨b, rfl, hb⟩ := h
    simp only [List.cons_append, List.append_assoc, List.nil_append] at hs ⊢
    have := keys_items l b hb r hs.2.2 hr ha
    exact ⟨fun hl => noCol_solid (this.1 hl) rfl (by simp), allKeys_plain this.2.2 rfl⟩
  | .obj l, u, h, r, hs, hr, ha => by
    rw [Sloppy] at h
    obtain ⟨b, rfl, hb⟩ := h
    simp only [List.cons_append, List.append_assoc, List.nil_append] at hs ⊢
    have := keys_fields l b hb r hs.2.2 hr ha
    refine ⟨fun hl => noCol_opener rfl (starts_fields hb _ _) ?_, fun _ => keyOk_fields hb _ _ hs.2.2 hr, this⟩
    intro x hx
    rcases hl x hx with h | h
    · exact Or.inl h
    · have := closing_head_fields hb _ _ x hx h
      subst this
      exact Or.inr ⟨h, hr⟩
theorem keys_items : ∀ (l : List Json.J) (b : List Tok), SItems false true l b → ∀ r, SpR (b ++ .closing true :: r) → NoCol r → AllKeys r →
    (LeadOk (b ++ .closing true :: r) → NoCol (b ++ .closing true :: r)) ∧
    (LeadOk (skip (b ++ .closing true :: r)) → NoCol (skip (b ++ .closing true :: r))) ∧ AllKeys (b ++ .closing true :: r)
  | [], b, h, r, hs, hr, ha => by
    rw [SItems] at h
    have h1 : NoCol (.closing true :: r) := noCol_solid hr rfl (by simp)
    refine ⟨fun _ => noCol_gap' h h1, fun _ => ?_, allKeys_gap h (allKeys_plain ha rfl)⟩
    rw [skip_gap _ _ h, skip_cons _ _ rfl]
    exact h1
  | v :: l, b, h, r, hs, hr, ha => by
    rw [SItems] at h
    obtain ⟨w, u, w', hw, hu, hw', h⟩ := h
    have main : ∀ R, b ++ .closing true :: r = w ++ (u ++ R) → NoCol R → AllKeys R →
        (LeadOk (b ++ .closing true :: r) → NoCol (b ++ .closing true :: r)) ∧
        (LeadOk (skip (b ++ .closing true :: r)) → NoCol (skip (b ++ .closing true :: r))) ∧ AllKeys (b ++ .closing true :: r) := by
      intro R e hR haR
      rw [e] at hs ⊢
      have hk := keys_val v u hu R (spR_suffix hs) hR haR
      obtain ⟨t0, z, hz, h1, _, h3, _⟩ := sloppy_head hu
      have hsk : skip (w ++ (u ++ R)) = u ++ R := by
        rw [skip_gap _ _ hw, hz, List.cons_append, skip_cons _ _ h1]
      have hst : ¬ startsColon (u ++ R) := by
        rw [hz, List.cons_append]
        exact not_startsColon [] _ _ gap_nil h1 h3
      refine ⟨fun hl => noCol_gap hw hst (fun hw0 => hk.1 ?_), fun hl => ?_, allKeys_gap hw hk.2⟩
      · rw [hw0] at hl; exact hl
      · rw [hsk] at hl ⊢; exact hk.1 hl
    rcases h with ⟨rfl, e⟩ | ⟨hl, r0, hr0, e⟩
    · exact main (w' ++ .closing true :: r) (by rw [e]; simp) (noCol_gap' hw' (noCol_solid hr rfl (by simp))) (allKeys_gap hw' (allKeys_plain ha rfl))
    · have e' : b ++ .closing true :: r = w ++ (u ++ (w' ++ .comma :: (r0 ++ .closing true :: r))) := by rw [e]; simp
      have hs' : SpR (.comma :: (r0 ++ .closing true :: r)) := by
        rw [e'] at hs
        exact spR_suffix (spR_suffix (spR_suffix hs))
      have hi := keys_items l r0 hr0 r hs'.2.2 hr ha
      refine main _ e' (noCol_gap' hw' (noCol_opener rfl (starts_items hr0 _ _) ?_))
        (allKeys_gap hw' ⟨fun _ => keyOk_noCol (hi.2.1 (hs'.2.1 rfl)), hi.2.2⟩)
      intro x hx
      rcases hs'.1 (Or.inl rfl) x hx with h | h
      · exact Or.inl h
      · have := closing_head hr0 _ _ x hx h
        subst this
        exact Or.inr ⟨h, hr⟩
theorem keys_fields : ∀ (l : List (Str × Json.J)) (b : List Tok), SFields false true l b → ∀ r, SpR (b ++ .closing false :: r) → NoCol r → AllKeys r →
    AllKeys (b ++ .closing false :: r)
  | [], b, h, r, hs, hr, ha => by
    rw [SFields] at h
    exact allKeys_gap h (allKeys_plain ha rfl)
  | (k, v) :: l, b, h, r, hs, hr, ha => by
    rw [SFields] at h
    obtain ⟨w, t, w1, w2, u, w', hw, hk, hw1, hw2, hu, hw', h⟩ := h
    have ht : t.trigger = false := by rcases hk.2 with ⟨q, rfl⟩ | ⟨_, rfl⟩ <;> rfl
    have main : ∀ R, b ++ .closing false :: r = w ++ t :: (w1 ++ .colon :: (w2 ++ (u ++ R))) → NoCol R → AllKeys R →
        AllKeys (b ++ .closing false :: r) := by
      intro R e hR haR
      rw [e] at hs ⊢
      have hsu : SpR (u ++ R) := spR_suffix (a := w ++ t :: (w1 ++ .colon :: w2)) (by simpa using hs)
      exact allKeys_gap hw (allKeys_plain (allKeys_gap hw1 (allKeys_plain (allKeys_gap hw2 (keys_val v u hu R hsu hR haR).2) rfl)) ht)
    rcases h with ⟨rfl, e⟩ | ⟨hl, r0, hr0, e⟩
    · exact main (w' ++ .closing false :: r) (by rw [e]; simp) (noCol_gap' hw' (noCol_solid hr rfl (by simp))) (allKeys_gap hw' (allKeys_plain ha rfl))
    · have e' : b ++ .closing false :: r = w ++ t :: (w1 ++ .colon :: (w2 ++ (u ++ (w' ++ .comma :: (r0 ++ .closing false :: r))))) := by rw [e]; simp
      have hs' : SpR (.comma :: (r0 ++ .closing false :: r)) := by
        rw [e'] at hs
        exact spR_suffix (a := w ++ t :: (w1 ++ .colon :: (w2 ++ (u ++ w')))) (by simpa using hs)
      have hi := keys_fields l r0 hr0 r hs'.2.2 hr ha
      refine main _ e' (noCol_gap' hw' (noCol_opener rfl (starts_fields hr0 _ _) ?_)) (allKeys_gap hw' ⟨fun _ => keyOk_fields hr0 _ _ hs'.2.2 hr, hi⟩)
      intro x hx
      rcases hs'.1 (Or.inl rfl) x hx with h | h
      · exact Or.inl h
      · have := closing_head_fields hr0 _ _ x hx h
        subst this
        exact Or.inr ⟨h, hr⟩
end

/-! ### Missing brackets -/

theorem solid_append {A : List Tok} (x : List Tok) (h : ∃ t ∈ A, t.solid = false) :
    (A ++ x).takeWhile Tok.solid = A.takeWhile Tok.solid ∧ (A ++ x).dropWhile Tok.solid = A.dropWhile Tok.solid ++ x := by
  induction A with
  | nil => obtain ⟨t, ht, _⟩ := h; cases ht
  | cons a A ih =>
    cases ha : a.solid with
    | false =>
      rw [List.cons_append, List.takeWhile_cons_of_neg (by simp [ha]), List.takeWhile_cons_of_neg (by simp [ha]),
        List.dropWhile_cons_of_neg (by simp [ha]), List.dropWhile_cons_of_neg (by simp [ha])]
      exact ⟨rfl, rfl⟩
    | true =>
      have hA : ∃ t ∈ A, t.solid = false := by
        obtain ⟨t, ht, hs⟩ := h
        rcases List.mem_cons.1 ht with rfl | ht
        · rw [ha] at hs; cases hs
        · exact ⟨t, ht, hs⟩
      obtain ⟨h1, h2⟩ := ih hA
      rw [List.cons_append, List.takeWhile_cons_of_pos ha, List.takeWhile_cons_of_pos ha, List.dropWhile_cons_of_pos ha,
        List.dropWhile_cons_of_pos ha, h1, h2]
      exact ⟨rfl, rfl⟩

theorem solid_all {A : List Tok} (x : List Tok) (h : ∀ t ∈ A, t.solid = true) :
    (A ++ x).takeWhile Tok.solid = A ++ x.takeWhile Tok.solid ∧ (A ++ x).dropWhile Tok.solid = x.dropWhile Tok.solid := by
  induction A with
  | nil => exact ⟨rfl, rfl⟩
  | cons a A ih =>
    obtain ⟨h1, h2⟩ := ih (fun t ht => h t (List.mem_cons_of_mem _ ht))
    have ha := h a List.mem_cons_self
    rw [List.cons_append, List.takeWhile_cons_of_pos ha, List.dropWhile_cons_of_pos ha, h1, h2]
    exact ⟨rfl, rfl⟩

theorem starts_tail {A x : List Tok} (h : Tail x) : startsColon (A ++ x) ↔ startsColon A := by
  obtain ⟨h1, h2⟩ := startsColon_tail A h
  by_cases hA : startsColon A
  · obtain ⟨r, hr⟩ := hA
    exact ⟨fun _ => ⟨r, hr⟩, fun _ => ⟨_, h1 r hr⟩⟩
  · exact ⟨fun h => absurd h (h2 hA), fun h => absurd h hA⟩

theorem gap_take {w' : List Tok} (h : Gap w') : w'.takeWhile Tok.solid = [] ∧ w'.dropWhile Tok.solid = w' := by
  cases w' with
  | nil => exact ⟨rfl, rfl⟩
  | cons t w' =>
    obtain ⟨⟨s, rfl⟩, _⟩ := gap_cons h
    exact ⟨rfl, rfl⟩

theorem closers_solid {cs : List Tok} (h : Closers cs) : ∀ t ∈ cs, t.solid = true := by
  intro t ht
  have := h t ht
  cases t <;> first | rfl | cases this

theorem gap_noColon {w' : List Tok} (h : Gap w') : ¬ startsColon w' := by
  rintro ⟨r, hr⟩
  rw [skip_gap_nil _ h] at hr
  cases hr

theorem keyOk_tail {a cs w' : List Tok} (hc : Closers cs) (hw' : Gap w') (h : KeyOk (a ++ cs)) : KeyOk (a ++ w') := by
  by_cases hs : ∃ t ∈ a, t.isWs = false
  · obtain ⟨e1, hne⟩ := skip_append (x := cs) hs
    obtain ⟨e2, _⟩ := skip_append (x := w') hs
    unfold KeyOk at h ⊢
    rw [e1] at h
    rw [e2]
    generalize skip a = A at h hne ⊢
    have tc : Tail cs := fun t ht => Or.inr (hc t ht)
    have tw : Tail w' := fun t ht => Or.inl (hw' t ht)
    by_cases hall : ∃ t ∈ A, t.solid = false
    · obtain ⟨c1, c2⟩ := solid_append cs hall
      obtain ⟨d1, d2⟩ := solid_append w' hall
      rw [c1, c2, starts_tail tc] at h
      rw [d1, d2, starts_tail tw]
      exact h
    · have hall' : ∀ t ∈ A, t.solid = true := by
        intro t ht
        cases hb : t.solid with
        | true => rfl
        | false => exact absurd ⟨t, ht, hb⟩ hall
      obtain ⟨c1, c2⟩ := solid_all cs hall'
      obtain ⟨d1, d2⟩ := solid_all w' hall'
      obtain ⟨g1, g2⟩ := gap_take hw'
      obtain ⟨k1, k2⟩ := solid_all [] (closers_solid hc)
      rw [List.append_nil] at k1 k2
      rw [c1, c2, k1, k2] at h
      rw [d1, d2, g1, g2]
      simp only [List.takeWhile_nil, List.dropWhile_nil, List.append_nil] at h ⊢
      rcases h with ⟨h, _⟩ | ⟨k, h, _⟩ | ⟨k, _, r, h⟩
      · exact Or.inl ⟨fun hm => h (List.mem_append_left _ hm), gap_noColon hw'⟩
      · refine Or.inr (Or.inl ⟨k, ?_, gap_noColon hw'⟩)
        rcases List.eq_nil_or_concat cs with rfl | ⟨cs', t, rfl⟩
        · rw [List.append_nil] at h; exact h
        · exfalso
          have hl := congrArg List.getLast? h
          rw [List.concat_eq_append, ← List.append_assoc, List.getLast?_append] at hl
          simp at hl
          have := hc t (by simp)
          rw [hl] at this
          cases this
      · cases h
  · refine keyOk_noCol ?_
    have : Gap a := by
      intro t ht
      cases hb : t.isWs with
      | true => rfl
      | false => exact absurd ⟨t, ht, hb⟩ hs
    rw [skip_gap _ _ this, skip_gap_nil _ hw']
    exact noCol_nil

theorem headOk_tail {a cs w' : List Tok} (hc : Closers cs) (h : HeadOk (a ++ w')) : HeadOk (a ++ cs) := by
  cases a with
  | nil =>
    intro x hx
    cases cs with
    | nil => cases hx
    | cons c cs => cases hx; exact Or.inr (hc x List.mem_cons_self)
  | cons t a => exact h

theorem leadOk_closers {cs : List Tok} (hc : Closers cs) : LeadOk cs := by
  cases cs with
  | nil => exact trivial
  | cons c cs =>
    have := hc c List.mem_cons_self
    cases c <;> first | exact trivial | cases this

theorem leadOk_tail {a cs w' : List Tok} (hc : Closers cs) (h : LeadOk (a ++ w')) : LeadOk (a ++ cs) := by
  induction a with
  | nil => exact leadOk_closers hc
  | cons t a ih =>
    cases t with
    | opening q =>
      cases q with
      | true => exact ih h
      | false => exact headOk_tail hc h
    | _ => exact trivial

theorem spR_closers {cs : List Tok} (hc : Closers cs) : SpR cs := by
  induction cs with
  | nil => exact trivial
  | cons c cs ih =>
    have := hc c List.mem_cons_self
    refine ⟨fun h => ?_, fun h => ?_, ih (fun t ht => hc t (List.mem_cons_of_mem _ ht))⟩
    · rcases h with rfl | rfl <;> cases this
    · subst h; cases this

theorem spR_tail {a cs w' : List Tok} (hc : Closers cs) (h : SpR (a ++ w')) (hs : a = [] ∨ EndsSolid a) : SpR (a ++ cs) := by
  induction a with
  | nil => exact spR_closers hc
  | cons t a ih =>
    have hs' : EndsSolid (t :: a) := hs.resolve_left (by simp)
    refine ⟨fun ht => headOk_tail hc (h.1 ht), fun ht => ?_, ih h.2.2 ?_⟩
    · by_cases ha : a = []
      · exfalso
        subst ha
        obtain ⟨r, x, e, _, hx⟩ := hs'
        cases r with
        | nil => exact hx ((List.cons.inj e).1 ▸ ht)
        | cons y r => have := (List.cons.inj e).2; simp at this
      · obtain ⟨r, x, e, hx, _⟩ := endsSolid_tail hs' ha
        have hex : ∃ t ∈ a, t.isWs = false := ⟨x, by rw [e]; simp, hx⟩
        obtain ⟨e1, _⟩ := skip_append (x := cs) hex
        obtain ⟨e2, _⟩ := skip_append (x := w') hex
        have : LeadOk (skip (a ++ w')) := h.2.1 ht
        show LeadOk (skip (a ++ cs))
        rw [e2] at this
        rw [e1]
        exact leadOk_tail hc this
    · by_cases ha : a = []
      · exact Or.inl ha
      · exact Or.inr (endsSolid_tail hs' ha)

theorem endsSolid_append (w : List Tok) {u : List Tok} (h : EndsSolid u) : EndsSolid (w ++ u) := by
  obtain ⟨r, t, rfl, h1, h2⟩ := h
  exact ⟨w ++ r, t, by simp, h1, h2⟩

/-- In a spaced document keys may follow every `{` and `,`. -/
theorem allKeys_doc {v : Json.J} {w u w' : List Tok} (hw : Gap w) (hu : Sloppy true true v u) (hw' : Gap w') (hs : SpR (w ++ (u ++ w'))) :
    AllKeys (noTrailing false ((w ++ (u ++ w')).map Tok.norm)) := by
  obtain ⟨u1, hu1, hm1, he1⟩ := nt_val v _ (sloppy_norm v u hu)
  have e1 : noTrailing false ((w ++ (u ++ w')).map Tok.norm) = w.map Tok.norm ++ (u1 ++ w'.map Tok.norm) := by
    rw [List.map_append, List.map_append, nt_gap _ _ (gap_norm hw), he1]
    have := nt_gap (w'.map Tok.norm) [] (gap_norm hw')
    simp only [List.append_nil, noTrailing] at this
    rw [this]
  have h1 := spR_nt _ false (spR_norm hs)
  rw [e1] at h1 ⊢
  refine allKeys_gap (gap_norm hw) (keys_val v u1 hu1 _ (spR_suffix h1) ?_ ?_).2
  · obtain ⟨g1, g2⟩ := gap_take (gap_norm hw')
    unfold NoCol
    rw [g1, g2]
    exact ⟨fun h => (by cases h), gap_noColon (gap_norm hw')⟩
  · have := allKeys_gap (r := []) (gap_norm hw') trivial
    rwa [List.append_nil] at this

theorem allKeys_tail {a cs w' : List Tok} (hc : Closers cs) (hw' : Gap w') (h : AllKeys (a ++ cs)) : AllKeys (a ++ w') := by
  induction a with
  | nil =>
    have := allKeys_gap (r := []) hw' trivial
    rw [List.append_nil] at this
    exact this
  | cons t a ih => exact ⟨fun ht => keyOk_tail hc hw' (h.1 ht), ih h.2⟩

theorem allKeys_cut {v : Json.J} {w u' cs w' : List Tok} (hw : Gap w) (hu : Sloppy true true v (u' ++ cs)) (hw' : Gap w') (hc : Closers cs)
    (hs : EndsSolid u') (hsp : SpR (w ++ (u' ++ w'))) : AllKeys (noTrailing false ((w ++ (u' ++ w')).map Tok.norm)) := by
  have h1 : SpR (w ++ ((u' ++ cs) ++ [])) := by
    rw [List.append_nil, ← List.append_assoc]
    rw [← List.append_assoc] at hsp
    exact spR_tail hc hsp (Or.inr (endsSolid_append w hs))
  have h2 := allKeys_doc hw hu gap_nil h1
  have hsn := endsSolid_norm (endsSolid_append w hs)
  have e1 : noTrailing false ((w ++ ((u' ++ cs) ++ [])).map Tok.norm) = noTrailing false ((w ++ u').map Tok.norm) ++ cs := by
    rw [List.append_nil, ← List.append_assoc, List.map_append, closers_norm hc, nt_end _ _ _ hsn, nt_closers false hc]
  have e2 : noTrailing false ((w ++ (u' ++ w')).map Tok.norm) = noTrailing false ((w ++ u').map Tok.norm) ++ w'.map Tok.norm := by
    have hwn : noTrailing false (w'.map Tok.norm) = w'.map Tok.norm := by
      have := nt_gap (w'.map Tok.norm) [] (gap_norm hw')
      rw [List.append_nil] at this
      rw [this]
      simp [noTrailing]
    rw [← List.append_assoc, List.map_append, nt_end _ _ _ hsn, hwn]
  rw [e1] at h2
  rw [e2]
  exact allKeys_tail hc (gap_norm hw') h2

/-- **C230.**  Sloppy JSON with white space after commas and colons is read as the value it stands for: strings may be in single quotes, keys may
be bare, commas may trail, and the last closing brackets may be missing (`u' ++ cs` is the document, `cs` the missing brackets; none when `cs` is
empty), as long as the text does not stop at a comma. -/
theorem C230_spaced {v : Json.J} {j : J Json.J} {w u' cs w' : List Tok} (hw : Gap w) (hu : Sloppy true true v (u' ++ cs)) (hw' : Gap w')
    (hc : ∀ t ∈ cs, t.isClosing = true) (hs : ∃ r t, u' = r ++ [t] ∧ t.isWs = false ∧ t ≠ .comma) (hg : ∀ t ∈ w ++ (u' ++ w'), t.Good)
    (hsep : ∀ pre a b post, w ++ (u' ++ w') ≠ pre ++ .ws a :: .ws b :: post) (hsp : Spaced (w ++ (u' ++ w')))
    (hj : Returns v j) : fuzzyRead (text (w ++ (u' ++ w'))) = .ok j :=
  C230_unclosed hw hu hw' hc hs
    ⟨hg, hsep, fun pre t post e ht => allKeys_spec pre t post (e ▸ allKeys_cut hw hu hw' hc hs (spR_of hsp)) ht⟩ hj

/-! ## Non-vacuity -/

theorem leadOk_apply (ops : List Tok) (x : Tok) (post : List Tok) (ho : ∀ o ∈ ops, o = .opening true) (h : LeadOk (ops ++ .opening false :: x :: post)) :
    Soft x := by
  induction ops with
  | nil => exact h x rfl
  | cons o ops ih =>
    have := ho o List.mem_cons_self
    subst this
    exact ih (fun o' ho' => ho o' (List.mem_cons_of_mem _ ho')) h

/-- The recursive form says the same. -/
theorem spaced_iff (ts : List Tok) : Spaced ts ↔ SpR ts := by
  refine ⟨spR_of, fun h => ⟨?_, ?_⟩⟩
  · rintro pre t x post rfl ht
    exact (spR_suffix h).1 ht x rfl
  · rintro pre w ops x post rfl hw ho
    have h1 := (spR_suffix h).2.1 rfl
    rw [skip_gap _ _ hw] at h1
    refine leadOk_apply ops x post ho ?_
    cases ops with
    | nil => exact h1
    | cons o ops =>
      have := ho o List.mem_cons_self
      subst this
      exact h1

/-- `{name: 'GPT, 4', tags: ['a', "b",], "config": {t: 0.7, max : 4 ` -/
def demoDoc : List Tok :=
  [.opening false, .bare "name".toList, .colon, .ws [' '], .str false "GPT, 4".toList, .comma,
   .ws "\n  ".toList, .bare "tags".toList, .colon, .ws [' '], .opening true, .str false "a".toList, .comma, .ws [' '],
   .str true "b".toList, .comma, .closing true, .comma, .ws [' '], .str true "config".toList, .colon, .ws [' '], .opening false,
   .bare "t".toList, .colon, .ws [' '], .bare "0.7".toList, .comma, .ws [' '], .bare "max".toList, .ws [' '], .colon, .ws [' '],
   .bare "4".toList]

def demoVal : Json.J :=
  .obj [("name".toList, .str "GPT, 4".toList), ("tags".toList, .arr [.str "a".toList, .str "b".toList]),
    ("config".toList, .obj [("t".toList, .token "0.7".toList (by decide)), ("max".toList, .token "4".toList (by decide))])]

theorem demo_plain (s : Str) (h : s.all (fun c => decide (32 ≤ c.toNat) && decide (c ≠ '\\')) = true) : Plain s := by
  intro c hc
  have := List.all_eq_true.1 h c hc
  simp only [Bool.and_eq_true, decide_eq_true_eq] at this
  exact this

theorem demo_gap (s : Str) : Gap [.ws s] := by
  intro t ht
  rcases List.mem_cons.1 ht with rfl | ht
  · rfl
  · cases ht

theorem demo_sloppy : Sloppy true true demoVal (demoDoc ++ [.closing false, .closing false]) := by
  have ga := demo_gap [' ']
  have gb := demo_gap "\n  ".toList
  have gn := gap_nil
  refine ⟨demoDoc.tail ++ [.closing false], rfl, [], .bare "name".toList, [], [.ws [' ']], [.str false "GPT, 4".toList], [], gn,
    ⟨demo_plain _ (by decide), .inr ⟨rfl, rfl⟩⟩, gn, ga, ⟨demo_plain _ (by decide), false, rfl⟩, gn, .inr ⟨.inl (by simp), _, ?_, rfl⟩⟩
  refine ⟨[.ws "\n  ".toList], .bare "tags".toList, [], [.ws [' ']],
    [.opening true, .str false "a".toList, .comma, .ws [' '], .str true "b".toList, .comma, .closing true], [], gb,
    ⟨demo_plain _ (by decide), .inr ⟨rfl, rfl⟩⟩, gn, ga,
    ⟨[.str false "a".toList, .comma, .ws [' '], .str true "b".toList, .comma], rfl, ?_⟩, gn, .inr ⟨.inl (by simp), _, ?_, rfl⟩⟩
  · refine ⟨[], [.str false "a".toList], [], gn, ⟨demo_plain _ (by decide), false, rfl⟩, gn, .inr ⟨.inl (by simp), _, ?_, rfl⟩⟩
    exact ⟨[.ws [' ']], [.str true "b".toList], [], ga, ⟨demo_plain _ (by decide), true, rfl⟩, gn, .inr ⟨.inr rfl, [], gn, rfl⟩⟩
  · refine ⟨[.ws [' ']], .str true "config".toList, [], [.ws [' ']],
      [.opening false, .bare "t".toList, .colon, .ws [' '], .bare "0.7".toList, .comma, .ws [' '], .bare "max".toList, .ws [' '], .colon,
        .ws [' '], .bare "4".toList, .closing false], [], ga, ⟨demo_plain _ (by decide), .inl ⟨true, rfl⟩⟩, gn, ga,
      ⟨[.bare "t".toList, .colon, .ws [' '], .bare "0.7".toList, .comma, .ws [' '], .bare "max".toList, .ws [' '], .colon,
        .ws [' '], .bare "4".toList], rfl, ?_⟩, gn, .inl ⟨rfl, rfl⟩⟩
    refine ⟨[], .bare "t".toList, [], [.ws [' ']], [.bare "0.7".toList], [], gn, ⟨demo_plain _ (by decide), .inr ⟨rfl, rfl⟩⟩, gn, ga, rfl, gn,
      .inr ⟨.inl (by simp), _, ?_, rfl⟩⟩
    exact ⟨[.ws [' ']], .bare "max".toList, [.ws [' ']], [.ws [' ']], [.bare "4".toList], [], ga,
      ⟨demo_plain _ (by decide), .inr ⟨rfl, rfl⟩⟩, ga, ga, rfl, gn, .inl ⟨rfl, rfl⟩⟩

example : fuzzyRead "{name: 'GPT, 4',\n  tags: ['a', \"b\",], \"config\": {t: 0.7, max : 4 ".toList = .ok (.dict demoVal) := by
  have ht : Tokenised ([] ++ (demoDoc ++ [.ws [' ']])) := tokenisedB_spec _ (by decide +kernel)
  refine C230_spaced (v := demoVal) (w := []) (u' := demoDoc) (cs := [.closing false, .closing false]) (w' := [.ws [' ']]) gap_nil demo_sloppy
    (demo_gap _) (by simp [Tok.isClosing]) ⟨demoDoc.take 33, .bare "4".toList, rfl, rfl, by simp⟩ ht.good ht.separated ?_ (.dict _)
  rw [spaced_iff]
  simp [demoDoc, SpR, HeadOk, Soft, skip, Tok.isWs, Tok.isClosing]
  exact ⟨trivial, trivial, trivial, trivial, trivial⟩

/-! ## Limits of the domain -/

/-- The keys of the dict that is returned. -/
def keysOf : Except Exc (J Json.J) → Option (List Str)
  | .ok (.dict (.obj l)) => some (l.map Prod.fst)
  | _ => none

def refused : Except Exc (J Json.J) → Bool
  | .error .valueError => true
  | _ => false

theorem refused_spec (r : Except Exc (J Json.J)) (h : refused r = true) : r = .error .valueError := by
  cases r with
  | ok a => cases h
  | error e => cases e <;> first | rfl | cases h

/-- **C230.**  Without white space after the comma the keys are not found: `{a:1,b:2}` is read as a dict with the one key `a:1,b`. -/
theorem C230_compact_limit : keysOf (fuzzyRead "{a:1,b:2}".toList) = some ["a:1,b".toList] := by
  decide +kernel

/-- **C230.**  Without white space after the brace of a later list item the keys are not found and the text is refused. -/
theorem C230_list_limit : fuzzyRead "[{a: 1}, {b: 2}]".toList = .error .valueError :=
  refused_spec _ (by decide +kernel)

/-- **C230.**  A text that stops at a comma is refused. -/
theorem C230_comma_limit : fuzzyRead "{\"a\": 1, ".toList = .error .valueError :=
  refused_spec _ (by decide +kernel)

/-- **C230.**  An apostrophe inside a string in double quotes ends it: the text is refused (unless it is valid JSON to begin with). -/
theorem C230_apostrophe_limit : fuzzyRead "{\"a\": \"it's\",}".toList = .error .valueError :=
  refused_spec _ (by decide +kernel)

end Verif.FuzzyJson
