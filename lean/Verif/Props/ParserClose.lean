import Verif.Props.Parser

/-!
# When the closing brace ends an `OUT{}` block: the exact condition for C104
-/

set_option linter.unusedSectionVars false
set_option linter.unusedSimpArgs false
set_option linter.unusedVariables false

namespace Verif.Parser

open Verif.Lexer

/-! ### Specification: what a block consists of -/

/-- The tokens between the brackets of an array: names, each followed by at most one comma, with line breaks anywhere. -/
inductive Items : List Token → Prop where
  | nil : Items []
  | nl (t : Token) (r : List Token) : t.kind = .newline → Items r → Items (t :: r)
  | item (t : Token) (r : List Token) : t.kind = .ident → Items r → Items (t :: r)
  | sep (t : Token) (n : List Token) (c : Token) (r : List Token) : t.kind = .ident → Newlines n → c.kind = .comma → Items r → Items (t :: (n ++ c :: r))

/-- The tokens that are taken as the value of a field: an array, a string, a number, a name - or any other single token inside the block. -/
inductive Value (env : Env) : List Token → Prop where
  | array (l : Token) (vs : List Token) (r : Token) : l.kind = .lbracket → Items vs → r.kind = .rbracket → Value env (l :: (vs ++ [r]))
  | one (t : Token) : t.kind = .str ∨ t.kind = .ident ∨ (t.kind = .num ∧ env.numOk t.value = true) → Value env [t]
  | other (t : Token) : t.kind ≠ .lbracket → t.kind ≠ .str → t.kind ≠ .num → t.kind ≠ .ident → t.kind ≠ .newline → t.kind ≠ .outClose → t.kind ≠ .eof →
      Value env [t]

/-- Complete fields, each with a value, with stray tokens between them. -/
inductive Block (env : Env) : List Token → Prop where
  | nil : Block env []
  | skip (t : Token) (b : List Token) : t.kind ≠ .ident → t.kind ≠ .outClose → t.kind ≠ .eof → Block env b → Block env (t :: b)
  | field (f : Token) (n : List Token) (c : Token) (n' vs b : List Token) : f.kind = .ident → Newlines n → c.kind = .colon → Newlines n' → Value env vs → Block env b →
      Block env (f :: (n ++ c :: (n' ++ (vs ++ b))))

/-- The block ends with a field name and a colon: its last field has no value. -/
def Dangling (env : Env) (b : List Token) : Prop :=
  ∃ b₁ f n c n', b = b₁ ++ f :: (n ++ c :: n') ∧ Block env b₁ ∧ f.kind = .ident ∧ Newlines n ∧ c.kind = .colon ∧ Newlines n'

/-- No closing brace and no end of input among the tokens. -/
def Inner (b : List Token) : Prop := ∀ t ∈ b, t.kind ≠ .outClose ∧ t.kind ≠ .eof

/-! ### Skipping -/

theorem skipNl_idem (l : List Token) : skipNl (skipNl l) = skipNl l := by
  induction l with
  | nil => rfl
  | cons t l ih =>
    cases l with
    | nil => rfl
    | cons u l =>
      rw [skipNl]
      split
      · exact ih
      · next h => rw [skipNl, if_neg h]

theorem parseRefs_skipNl (fuel : Nat) (l : List Token) : parseRefs fuel (skipNl l) = parseRefs fuel l := by
  cases fuel with
  | zero => rfl
  | succ fuel => rw [parseRefs, parseRefs, skipNl_idem]

theorem parseFields_skipNl (env : Env) (fuel : Nat) (d : Dict Str OutVal) (l : List Token) : parseFields env fuel d (skipNl l) = parseFields env fuel d l := by
  cases fuel with
  | zero => rfl
  | succ fuel => rw [parseFields, parseFields, skipNl_idem]

theorem skipNl_newline (t : Token) (r : List Token) (ht : t.kind = .newline) (hr : r ≠ []) : skipNl (t :: r) = skipNl r := by
  cases r with
  | nil => exact absurd rfl hr
  | cons u r => rw [skipNl, if_pos ht]

theorem sepOut_newline (t : Token) (r : List Token) (ht : t.kind = .newline) (hr : r ≠ []) : sepOut (t :: r) = sepOut r := by
  unfold sepOut; rw [skipNl_newline t r ht hr]

theorem sepOut_comma1 (t : Token) (r : List Token) (ht : t.kind = .comma) (hr : r ≠ []) : sepOut (t :: r) = r := by
  have hm : Newlines ([] : List Token) := by intro t ht; cases ht
  exact sepOut_comma hm t ht r hr

theorem sepOut_other (t : Token) (r : List Token) (h1 : t.kind ≠ .newline) (h2 : t.kind ≠ .comma) : sepOut (t :: r) = t :: r := by
  unfold sepOut
  rw [skipNl_cons_of_ne t r h1, cur_cons, if_neg h2]

theorem split_nl (b : List Token) : ∃ n r, b = n ++ r ∧ Newlines n ∧ (r = [] ∨ ∃ t r', r = t :: r' ∧ t.kind ≠ .newline) := by
  induction b with
  | nil => exact ⟨[], [], rfl, (by intro t ht; cases ht), Or.inl rfl⟩
  | cons t b ih =>
    by_cases ht : t.kind = .newline
    · obtain ⟨n, r, e, hn, h⟩ := ih
      refine ⟨t :: n, r, by rw [e]; rfl, ?_, h⟩
      intro u hu
      rcases List.mem_cons.1 hu with rfl | hu
      · exact ht
      · exact hn u hu
    · exact ⟨[], t :: b, rfl, (by intro t ht; cases ht), Or.inr ⟨t, b, rfl, ht⟩⟩

/-! ### Arrays -/

theorem parseRefs_ident (fuel : Nat) (t : Token) (r : List Token) (ht : t.kind = .ident) (hr : r ≠ []) :
    parseRefs (fuel + 1) (t :: r) = (parseRefs fuel (sepOut r)).map (fun p => (t.value :: p.1, p.2)) := by
  rw [parseRefs, skipNl_cons_of_ne t r (by rw [ht]; decide), cur_cons, if_neg (by rw [ht]; decide), if_pos ht, adv_cons t hr]
  rfl

theorem parseRefs_stop (fuel : Nat) (t : Token) (r : List Token) (ht : t.kind = .rbracket) : parseRefs (fuel + 1) (t :: r) = .ok ([], t :: r) := by
  rw [parseRefs, skipNl_cons_of_ne t r (by rw [ht]; decide), cur_cons, if_pos (Or.inl ht)]

theorem parseRefs_bad (fuel : Nat) (t : Token) (r : List Token) (h1 : t.kind ≠ .newline) (h2 : t.kind ≠ .rbracket) (h3 : t.kind ≠ .eof) (h4 : t.kind ≠ .ident) :
    parseRefs (fuel + 1) (t :: r) = .error .parse := by
  rw [parseRefs, skipNl_cons_of_ne t r h1, cur_cons, if_neg (fun h => h.elim h2 h3), if_neg h4]

theorem Items.noComma {vs : List Token} (h : Items vs) (r : Token) (hr : r.kind ≠ .comma) (hr' : r.kind ≠ .newline) (tl : List Token) :
    sepOut (vs ++ r :: tl) = skipNl (vs ++ r :: tl) := by
  induction h with
  | nil => rw [List.nil_append, sepOut_other r tl hr' hr, skipNl_cons_of_ne r tl hr']
  | nl t vs ht _ ih => rw [List.cons_append, sepOut_newline t _ ht (by simp), skipNl_newline t _ ht (by simp), ih]
  | item t vs ht _ ih => rw [List.cons_append, sepOut_other t _ (by rw [ht]; decide) (by rw [ht]; decide), skipNl_cons_of_ne t _ (by rw [ht]; decide)]
  | sep t n c vs ht _ _ _ ih => rw [List.cons_append, sepOut_other t _ (by rw [ht]; decide) (by rw [ht]; decide), skipNl_cons_of_ne t _ (by rw [ht]; decide)]

theorem Items.read {vs : List Token} (h : Items vs) :
    ∃ rs, ∀ (r : Token) (tl : List Token) (fuel : Nat), r.kind = .rbracket → vs.length < fuel → parseRefs fuel (vs ++ r :: tl) = .ok (rs, r :: tl) := by
  induction h with
  | nil =>
    refine ⟨[], fun r tl fuel hr hf => ?_⟩
    cases fuel with
    | zero => simp at hf
    | succ fuel => exact parseRefs_stop fuel r tl hr
  | nl t vs ht _ ih =>
    obtain ⟨rs, ih⟩ := ih
    refine ⟨rs, fun r tl fuel hr hf => ?_⟩
    rw [List.cons_append, ← parseRefs_skipNl, skipNl_newline t _ ht (by simp), parseRefs_skipNl]
    exact ih r tl fuel hr (by simp at hf; omega)
  | item t vs ht hv ih =>
    obtain ⟨rs, ih⟩ := ih
    refine ⟨t.value :: rs, fun r tl fuel hr hf => ?_⟩
    cases fuel with
    | zero => simp at hf
    | succ fuel =>
      rw [List.cons_append, parseRefs_ident fuel t _ ht (by simp), hv.noComma r (by rw [hr]; decide) (by rw [hr]; decide), parseRefs_skipNl, ih r tl fuel hr (by simp at hf; omega)]
      rfl
  | sep t n c vs ht hn hc hv ih =>
    obtain ⟨rs, ih⟩ := ih
    refine ⟨t.value :: rs, fun r tl fuel hr hf => ?_⟩
    cases fuel with
    | zero => simp at hf
    | succ fuel =>
      have e : t :: (n ++ c :: vs) ++ r :: tl = t :: (n ++ c :: (vs ++ r :: tl)) := by simp
      rw [e, parseRefs_ident fuel t _ ht (by simp), sepOut_comma hn c hc _ (by simp), ih r tl fuel hr (by simp at hf; omega)]
      rfl

theorem Inner.tail {t : Token} {b : List Token} (h : Inner (t :: b)) : Inner b := fun u hu => h u (List.mem_cons_of_mem _ hu)
theorem Inner.right {a b : List Token} (h : Inner (a ++ b)) : Inner b := fun u hu => h u (List.mem_append_right _ hu)

theorem items_nl {n vs : List Token} (hn : Newlines n) (hv : Items vs) : Items (n ++ vs) := by
  induction n with
  | nil => exact hv
  | cons t n ih => exact .nl t _ (hn t (List.mem_cons_self ..)) (ih (fun u hu => hn u (List.mem_cons_of_mem _ hu)))

theorem items_or_error (x : Token) (hx : x.kind = .outClose) (k : Nat) : ∀ (b : List Token), b.length ≤ k → Inner b →
    (∃ vs r b', b = vs ++ r :: b' ∧ Items vs ∧ r.kind = .rbracket) ∨
      ∀ (fuel : Nat) (tl : List Token), b.length < fuel → parseRefs fuel (b ++ x :: tl) = .error .parse := by
  have hstop : ∀ (fuel : Nat) (tl : List Token), 0 < fuel → parseRefs fuel (x :: tl) = .error .parse := by
    intro fuel tl hf
    cases fuel with
    | zero => omega
    | succ fuel => exact parseRefs_bad fuel x tl (by rw [hx]; decide) (by rw [hx]; decide) (by rw [hx]; decide) (by rw [hx]; decide)
  induction k with
  | zero =>
    intro b hb _
    cases b with
    | nil => exact Or.inr (fun fuel tl hf => hstop fuel tl hf)
    | cons t b => simp at hb
  | succ k ih =>
    intro b hb hi
    cases b with
    | nil => exact Or.inr (fun fuel tl hf => hstop fuel tl hf)
    | cons t b =>
      by_cases h1 : t.kind = .newline
      · rcases ih b (by simp at hb; omega) hi.tail with ⟨vs, r, b', e, hv, hr⟩ | he
        · exact Or.inl ⟨t :: vs, r, b', by rw [e]; rfl, .nl t vs h1 hv, hr⟩
        · refine Or.inr (fun fuel tl hf => ?_)
          rw [List.cons_append, ← parseRefs_skipNl, skipNl_newline t _ h1 (by simp), parseRefs_skipNl]
          exact he fuel tl (by simp at hf; omega)
      by_cases h2 : t.kind = .rbracket
      · exact Or.inl ⟨[], t, b, rfl, .nil, h2⟩
      by_cases h3 : t.kind = .ident
      · obtain ⟨n, r, e, hn, hr⟩ := split_nl b
        by_cases hc : ∃ c r', r = c :: r' ∧ c.kind = .comma
        · obtain ⟨c, r', e', hc⟩ := hc
          subst e'
          subst e
          rcases ih r' (by simp at hb; omega) hi.tail.right.tail with ⟨vs, q, b', e, hv, hq⟩ | he
          · exact Or.inl ⟨t :: (n ++ c :: vs), q, b', by rw [e]; simp, .sep t n c vs h3 hn hc hv, hq⟩
          · refine Or.inr (fun fuel tl hf => ?_)
            cases fuel with
            | zero => simp at hf
            | succ fuel =>
              have e : t :: (n ++ c :: r') ++ x :: tl = t :: (n ++ c :: (r' ++ x :: tl)) := by simp
              rw [e, parseRefs_ident fuel t _ h3 (by simp), sepOut_comma hn c hc _ (by simp), he fuel tl (by simp at hf; omega)]
              rfl
        · have hs : ∀ tl, sepOut (b ++ x :: tl) = skipNl (b ++ x :: tl) := by
            intro tl
            rcases hr with hr | ⟨c, r', er, hcn⟩
            · subst hr
              rw [e, List.append_nil]
              unfold sepOut
              rw [skipNl_to hn x (by rw [hx]; decide), cur_cons, if_neg (by rw [hx]; decide)]
            · subst er
              have e' : b ++ x :: tl = n ++ c :: (r' ++ x :: tl) := by rw [e]; simp
              unfold sepOut
              rw [e', skipNl_to hn c hcn, cur_cons, if_neg (fun hk => hc ⟨c, r', rfl, hk⟩)]
          rcases ih b (by simp at hb; omega) hi.tail with ⟨vs, q, b', e, hv, hq⟩ | he
          · exact Or.inl ⟨t :: vs, q, b', by rw [e]; rfl, .item t vs h3 hv, hq⟩
          · refine Or.inr (fun fuel tl hf => ?_)
            cases fuel with
            | zero => simp at hf
            | succ fuel =>
              rw [List.cons_append, parseRefs_ident fuel t _ h3 (by simp), hs, parseRefs_skipNl, he fuel tl (by simp at hf; omega)]
              rfl
      · refine Or.inr (fun fuel tl hf => ?_)
        cases fuel with
        | zero => simp at hf
        | succ fuel => exact parseRefs_bad fuel t _ h1 h2 (hi t (List.mem_cons_self ..)).2 h3

/-! ### Values -/

theorem parseVal_other (env : Env) (fuel : Nat) (t : Token) (tl : List Token) (htl : tl ≠ []) (h1 : t.kind ≠ .lbracket) (h2 : t.kind ≠ .str) (h3 : t.kind ≠ .num)
    (h4 : t.kind ≠ .ident) : parseVal env fuel (t :: tl) = .ok (none, tl) := by
  unfold parseVal
  rw [cur_cons]
  split
  · next h => exact absurd h h1
  · next h => exact absurd h h2
  · next h => exact absurd h h3
  · next h => exact absurd h h4
  · rw [adv_cons t htl]

theorem Value.read {env : Env} {vs : List Token} (h : Value env vs) :
    ∃ v, ∀ (fuel : Nat) (tl : List Token), tl ≠ [] → vs.length ≤ fuel → parseVal env fuel (vs ++ tl) = .ok (v, tl) := by
  cases h with
  | array l vs r hl hv hr =>
    obtain ⟨rs, hrs⟩ := hv.read
    refine ⟨some (.refs rs), fun fuel tl htl hf => ?_⟩
    have e : l :: (vs ++ [r]) ++ tl = l :: (vs ++ r :: tl) := by simp
    unfold parseVal
    rw [e, cur_cons, hl]
    simp only
    rw [adv_cons l (by simp), parseRefs_skipNl, hrs r tl fuel hr (by simp at hf; omega)]
    simp only [bind, Except.bind, cur_cons, hr, if_true]
    rw [adv_cons r htl]
  | one t ht =>
    rcases ht with ht | ht | ⟨ht, hn⟩
    · refine ⟨some (.str t.value), fun fuel tl htl hf => ?_⟩
      unfold parseVal
      rw [List.singleton_append, cur_cons, ht]
      simp only
      rw [adv_cons t htl, curVal_cons]
    · refine ⟨some (identVal t.value), fun fuel tl htl hf => ?_⟩
      unfold parseVal
      rw [List.singleton_append, cur_cons, ht]
      simp only
      rw [adv_cons t htl, curVal_cons]
    · refine ⟨some (.num t.value), fun fuel tl htl hf => ?_⟩
      unfold parseVal
      rw [List.singleton_append, cur_cons, ht]
      simp only
      rw [adv_cons t htl, curVal_cons, if_pos hn]
  | other t h1 h2 h3 h4 =>
    exact ⟨none, fun fuel tl htl hf => parseVal_other env fuel t tl htl h1 h2 h3 h4⟩

theorem Value.first {env : Env} {vs : List Token} (h : Value env vs) : ∃ t r, vs = t :: r ∧ t.kind ≠ .newline := by
  cases h with
  | array l vs r hl => exact ⟨_, _, rfl, by rw [hl]; decide⟩
  | one t ht => exact ⟨_, _, rfl, by rcases ht with ht | ht | ⟨ht, _⟩ <;> rw [ht] <;> decide⟩
  | other t h1 h2 h3 h4 h5 => exact ⟨_, _, rfl, h5⟩

theorem value_or_error (env : Env) (x : Token) (hx : x.kind = .outClose) (t : Token) (r : List Token) (hi : Inner (t :: r)) (hn : t.kind ≠ .newline) :
    (∃ vs b, t :: r = vs ++ b ∧ Value env vs) ∨
      ∃ e, ∀ (fuel : Nat) (tl : List Token), r.length < fuel → parseVal env fuel (t :: r ++ x :: tl) = .error e := by
  by_cases h1 : t.kind = .lbracket
  · rcases items_or_error x hx r.length r (Nat.le_refl _) hi.tail with ⟨vs, q, b, e, hv, hq⟩ | he
    · exact Or.inl ⟨t :: (vs ++ [q]), b, by rw [e]; simp, .array t vs q h1 hv hq⟩
    · refine Or.inr ⟨.parse, fun fuel tl hf => ?_⟩
      unfold parseVal
      rw [List.cons_append, cur_cons, h1]
      simp only
      rw [adv_cons t (by simp), parseRefs_skipNl, he fuel tl hf]
      rfl
  by_cases h2 : t.kind = .str
  · exact Or.inl ⟨[t], r, rfl, .one t (Or.inl h2)⟩
  by_cases h4 : t.kind = .ident
  · exact Or.inl ⟨[t], r, rfl, .one t (Or.inr (Or.inl h4))⟩
  by_cases h3 : t.kind = .num
  · by_cases hk : env.numOk t.value = true
    · exact Or.inl ⟨[t], r, rfl, .one t (Or.inr (Or.inr ⟨h3, hk⟩))⟩
    · refine Or.inr ⟨.value, fun fuel tl hf => ?_⟩
      unfold parseVal
      rw [List.cons_append, cur_cons, h3]
      simp only
      rw [curVal_cons, if_neg hk]
  · exact Or.inl ⟨[t], r, rfl, .other t h1 h2 h3 h4 hn (hi t (List.mem_cons_self ..)).1 (hi t (List.mem_cons_self ..)).2⟩

/-! ### Fields -/

theorem parseFields_junk (env : Env) (fuel : Nat) (d : Dict Str OutVal) (t : Token) (r : List Token) (hr : r ≠ []) (h1 : t.kind ≠ .newline) (h2 : t.kind ≠ .outClose)
    (h3 : t.kind ≠ .eof) (h4 : t.kind ≠ .ident) : parseFields env (fuel + 1) d (t :: r) = parseFields env fuel d r := by
  rw [parseFields, skipNl_cons_of_ne t r h1, cur_cons, if_neg (fun h => h.elim h2 h3), if_neg h4, adv_cons t hr]

theorem parseFields_stop (env : Env) (fuel : Nat) (d : Dict Str OutVal) (t : Token) (r : List Token) (h : t.kind = .outClose ∨ t.kind = .eof) :
    parseFields env (fuel + 1) d (t :: r) = .ok (d, t :: r) := by
  have h1 : t.kind ≠ .newline := by rcases h with h | h <;> rw [h] <;> decide
  rw [parseFields, skipNl_cons_of_ne t r h1, cur_cons, if_pos h]

theorem parseFields_name (env : Env) (fuel : Nat) (d : Dict Str OutVal) (f : Token) (r : List Token) (hr : r ≠ []) (hf : f.kind = .ident) :
    parseFields env (fuel + 1) d (f :: r) = (do
      let (_, r) ← expect .colon (skipNl r)
      let (v, r) ← parseVal env fuel (skipNl r)
      parseFields env fuel (setOpt d f.value v) (sepOut r)) := by
  rw [parseFields, skipNl_cons_of_ne f r (by rw [hf]; decide), cur_cons, if_neg (by rw [hf]; decide), if_pos hf, adv_cons f hr]
  rfl

theorem parseFields_val (env : Env) (fuel : Nat) (d : Dict Str OutVal) (f : Token) (n : List Token) (c : Token) (n' : List Token) (t : Token) (r : List Token)
    (hf : f.kind = .ident) (hn : Newlines n) (hc : c.kind = .colon) (hn' : Newlines n') (ht : t.kind ≠ .newline) :
    parseFields env (fuel + 1) d (f :: (n ++ c :: (n' ++ t :: r))) = (do
      let (v, r) ← parseVal env fuel (t :: r)
      parseFields env fuel (setOpt d f.value v) (sepOut r)) := by
  rw [parseFields_name env fuel d f _ (by simp) hf, skipNl_to hn c (by rw [hc]; decide), expect_cons hc (by simp)]
  simp only [bind, Except.bind]
  rw [skipNl_to hn' t ht]

/-- Complete fields are read one by one; what follows decides how it goes on. -/
theorem Block.read {env : Env} {b : List Token} (h : Block env b) : ∀ (d : Dict Str OutVal), ∃ d', ∀ (rest : List Token) (fuel : Nat), rest ≠ [] → cur rest ≠ .newline →
    cur rest ≠ .comma → b.length < fuel →
    (∃ fuel', fuel ≤ fuel' + b.length ∧ parseFields env fuel d (b ++ rest) = parseFields env fuel' d' rest) ∧
    (∃ fuel', fuel ≤ fuel' + b.length ∧ parseFields env fuel d (sepOut (b ++ rest)) = parseFields env fuel' d' rest) := by
  induction h with
  | nil =>
    refine fun d => ⟨d, fun rest fuel hne h1 h2 hf => ?_⟩
    cases rest with
    | nil => exact absurd rfl hne
    | cons t r =>
      refine ⟨⟨fuel, by omega, rfl⟩, ⟨fuel, by omega, ?_⟩⟩
      rw [List.nil_append, sepOut_other t r h1 h2]
  | skip t b h1 h2 h3 hb ih =>
    intro d
    obtain ⟨d', ih⟩ := ih d
    refine ⟨d', fun rest fuel hne hr1 hr2 hf => ?_⟩
    have hne' : b ++ rest ≠ [] := by simp [hne]
    by_cases hnl : t.kind = .newline
    · obtain ⟨⟨k1, e1, p1⟩, ⟨k2, e2, p2⟩⟩ := ih rest fuel hne hr1 hr2 (by simp at hf; omega)
      refine ⟨⟨k1, by simp; omega, ?_⟩, ⟨k2, by simp; omega, ?_⟩⟩
      · rw [List.cons_append, ← parseFields_skipNl, skipNl_newline t _ hnl hne', parseFields_skipNl, p1]
      · rw [List.cons_append, sepOut_newline t _ hnl hne', p2]
    · cases fuel with
      | zero => simp at hf
      | succ fuel =>
        obtain ⟨⟨k1, e1, p1⟩, _⟩ := ih rest fuel hne hr1 hr2 (by simp at hf; omega)
        have p : parseFields env (fuel + 1) d (t :: b ++ rest) = parseFields env k1 d' rest := by
          rw [List.cons_append, parseFields_junk env fuel d t _ hne' hnl h2 h3 h1, p1]
        refine ⟨⟨k1, by simp; omega, p⟩, ?_⟩
        by_cases hc : t.kind = .comma
        · obtain ⟨⟨k2, e2, p2⟩, _⟩ := ih rest (fuel + 1) hne hr1 hr2 (by simp at hf; omega)
          exact ⟨k2, by simp; omega, by rw [List.cons_append, sepOut_comma1 t _ hc hne', p2]⟩
        · exact ⟨k1, by simp; omega, by rw [List.cons_append, sepOut_other t _ hnl hc, ← List.cons_append, p]⟩
  | field f n c n' vs b hf hn hc hn' hv hb ih =>
    intro d
    obtain ⟨v, hvr⟩ := hv.read
    obtain ⟨d', ih⟩ := ih (setOpt d f.value v)
    refine ⟨d', fun rest fuel hne hr1 hr2 hl => ?_⟩
    obtain ⟨t, r, evs, ht⟩ := hv.first
    have hne' : b ++ rest ≠ [] := by simp [hne]
    have ea : f :: (n ++ c :: (n' ++ (vs ++ b))) ++ rest = f :: (n ++ c :: (n' ++ t :: (r ++ (b ++ rest)))) := by rw [evs]; simp
    have eb : vs ++ (b ++ rest) = t :: (r ++ (b ++ rest)) := by rw [evs]; simp
    cases fuel with
    | zero => simp at hl
    | succ fuel =>
      simp only [List.length_cons, List.length_append] at hl
      obtain ⟨_, ⟨k2, e2, p2⟩⟩ := ih rest fuel hne hr1 hr2 (by omega)
      have p : parseFields env (fuel + 1) d (f :: (n ++ c :: (n' ++ (vs ++ b))) ++ rest) = parseFields env k2 d' rest := by
        rw [ea, parseFields_val env fuel d f n c n' t _ hf hn hc hn' ht, ← eb, hvr fuel _ hne' (by omega)]
        exact p2
      refine ⟨⟨k2, by simp; omega, p⟩, ⟨k2, by simp; omega, ?_⟩⟩
      rw [List.cons_append, sepOut_other f _ (by rw [hf]; decide) (by rw [hf]; decide), ← List.cons_append, p]

theorem Dangling.skip {env : Env} {b : List Token} (t : Token) (h1 : t.kind ≠ .ident) (h2 : t.kind ≠ .outClose) (h3 : t.kind ≠ .eof) (h : Dangling env b) :
    Dangling env (t :: b) := by
  obtain ⟨b₁, f, n, c, n', e, hb, r⟩ := h
  exact ⟨t :: b₁, f, n, c, n', by rw [e]; rfl, .skip t b₁ h1 h2 h3 hb, r⟩

/-- Every body is complete, or ends with a field without a value, or is rejected whatever follows. -/
theorem block_or_error (env : Env) (x : Token) (hx : x.kind = .outClose) (k : Nat) : ∀ (b : List Token), b.length ≤ k → Inner b →
    Block env b ∨ Dangling env b ∨ ∃ e, ∀ (d : Dict Str OutVal) (fuel : Nat) (tl : List Token), b.length < fuel →
      parseFields env fuel d (b ++ x :: tl) = .error e ∧ parseFields env fuel d (sepOut (b ++ x :: tl)) = .error e := by
  induction k with
  | zero =>
    intro b hb _
    cases b with
    | nil => exact Or.inl .nil
    | cons t b => simp at hb
  | succ k ih =>
    intro b hb hi
    cases b with
    | nil => exact Or.inl .nil
    | cons t b =>
      obtain ⟨hi1, hi2⟩ := hi t (List.mem_cons_self ..)
      have hb' : b.length ≤ k := by simp at hb; omega
      by_cases h1 : t.kind = .ident
      · have self : ∀ tl, sepOut (t :: b ++ x :: tl) = t :: b ++ x :: tl := by
          intro tl; rw [List.cons_append, sepOut_other t _ (by rw [h1]; decide) (by rw [h1]; decide)]
        have fin : (∃ e, ∀ (d : Dict Str OutVal) (fuel : Nat) (tl : List Token), b.length < fuel → parseFields env (fuel + 1) d (t :: b ++ x :: tl) = .error e) →
            ∃ e, ∀ (d : Dict Str OutVal) (fuel : Nat) (tl : List Token), (t :: b).length < fuel →
              parseFields env fuel d (t :: b ++ x :: tl) = .error e ∧ parseFields env fuel d (sepOut (t :: b ++ x :: tl)) = .error e := by
          rintro ⟨e, h⟩
          refine ⟨e, fun d fuel tl hf => ?_⟩
          rw [self]
          cases fuel with
          | zero => simp at hf
          | succ fuel =>
            have := h d fuel tl (by simp at hf; omega)
            exact ⟨this, this⟩
        obtain ⟨n, r, e, hn, hr⟩ := split_nl b
        rcases hr with hr | ⟨c, r', er, hcn⟩
        · refine Or.inr (Or.inr (fin ⟨.parse, fun d fuel tl hf => ?_⟩))
          rw [e, hr, List.append_nil, List.cons_append, parseFields_name env fuel d t _ (by simp) h1, skipNl_to hn x (by rw [hx]; decide), expect, cur_cons,
            if_neg (by rw [hx]; decide)]
          rfl
        · by_cases hc : c.kind = .colon
          · obtain ⟨n', q, e', hn', hq⟩ := split_nl r'
            have ebn : b = n ++ c :: (n' ++ q) := by rw [e, er, e']
            rcases hq with hq | ⟨u, q', eq', hu⟩
            · refine Or.inr (Or.inl ⟨[], t, n, c, n', ?_, .nil, h1, hn, hc, hn'⟩)
              rw [ebn, hq, List.append_nil]; rfl
            · have hiq : Inner (u :: q') := by
                have := hi.tail
                rw [ebn, eq'] at this
                exact this.right.tail.right
              rcases value_or_error env x hx u q' hiq hu with ⟨vs, b2, ev, hv⟩ | ⟨er2, he⟩
              · have eb2 : b = n ++ c :: (n' ++ (vs ++ b2)) := by rw [ebn, eq', ev]
                have hib2 : Inner b2 := by rw [ev] at hiq; exact hiq.right
                have hlen : b2.length ≤ k := by rw [eb2] at hb'; simp at hb'; omega
                rcases ih b2 hlen hib2 with hbl | hd | ⟨e3, he3⟩
                · exact Or.inl (by rw [eb2]; exact .field t n c n' vs b2 h1 hn hc hn' hv hbl)
                · obtain ⟨b₁, f, m, c2, m', e4, hb1, r4⟩ := hd
                  refine Or.inr (Or.inl ⟨t :: (n ++ c :: (n' ++ (vs ++ b₁))), f, m, c2, m', ?_, .field t n c n' vs b₁ h1 hn hc hn' hv hb1, r4⟩)
                  rw [eb2, e4]; simp
                · refine Or.inr (Or.inr (fin ⟨e3, fun d fuel tl hf => ?_⟩))
                  obtain ⟨w, hvr⟩ := hv.read
                  obtain ⟨t0, r0, evs, ht0⟩ := hv.first
                  have ea : t :: b ++ x :: tl = t :: (n ++ c :: (n' ++ t0 :: (r0 ++ (b2 ++ x :: tl)))) := by rw [eb2, evs]; simp
                  have eb : vs ++ (b2 ++ x :: tl) = t0 :: (r0 ++ (b2 ++ x :: tl)) := by rw [evs]; simp
                  have hlb : b.length = n.length + (n'.length + (vs.length + b2.length) + 1) := by rw [eb2]; simp
                  rw [ea, parseFields_val env fuel d t n c n' t0 _ h1 hn hc hn' ht0, ← eb, hvr fuel _ (by simp) (by omega)]
                  exact (he3 _ fuel tl (by omega)).2
              · refine Or.inr (Or.inr (fin ⟨er2, fun d fuel tl hf => ?_⟩))
                have ea : t :: b ++ x :: tl = t :: (n ++ c :: (n' ++ u :: (q' ++ x :: tl))) := by rw [ebn, eq']; simp
                have hlb : b.length = n.length + (n'.length + (q'.length + 1) + 1) := by rw [ebn, eq']; simp
                rw [ea, parseFields_val env fuel d t n c n' u _ h1 hn hc hn' hu, ← List.cons_append, he fuel tl (by omega)]
                rfl
          · refine Or.inr (Or.inr (fin ⟨.parse, fun d fuel tl hf => ?_⟩))
            have ea : t :: b ++ x :: tl = t :: (n ++ c :: (r' ++ x :: tl)) := by rw [e, er]; simp
            rw [ea, parseFields_name env fuel d t _ (by simp) h1, skipNl_to hn c hcn, expect, cur_cons, if_neg hc]
            rfl
      · rcases ih b hb' hi.tail with hbl | hd | ⟨e, he⟩
        · exact Or.inl (.skip t b h1 hi1 hi2 hbl)
        · exact Or.inr (Or.inl (hd.skip t h1 hi1 hi2))
        · refine Or.inr (Or.inr ⟨e, fun d fuel tl hf => ?_⟩)
          have hf' : b.length < fuel := by simp at hf; omega
          by_cases hnl : t.kind = .newline
          · refine ⟨?_, ?_⟩
            · rw [List.cons_append, ← parseFields_skipNl, skipNl_newline t _ hnl (by simp), parseFields_skipNl]
              exact (he d fuel tl hf').1
            · rw [List.cons_append, sepOut_newline t _ hnl (by simp)]
              exact (he d fuel tl hf').2
          · have p : parseFields env fuel d (t :: b ++ x :: tl) = .error e := by
              cases fuel with
              | zero => omega
              | succ fuel =>
                rw [List.cons_append, parseFields_junk env fuel d t _ (by simp) hnl hi1 hi2 h1]
                exact (he d fuel tl (by simp at hf; omega)).1
            refine ⟨p, ?_⟩
            by_cases hc : t.kind = .comma
            · rw [List.cons_append, sepOut_comma1 t _ hc (by simp)]
              exact (he d fuel tl hf').1
            · rw [List.cons_append, sepOut_other t _ hnl hc, ← List.cons_append, p]

/-- After a field without a value the closing brace is taken as its value: reading goes on behind it. -/
theorem Dangling.read {env : Env} {b : List Token} (h : Dangling env b) (x : Token) (hx : x.kind = .outClose) (d : Dict Str OutVal) :
    ∃ d', ∀ (fuel : Nat) (tl : List Token), tl ≠ [] → b.length < fuel →
      ∃ fuel', fuel ≤ fuel' + b.length ∧ parseFields env fuel d (b ++ x :: tl) = parseFields env fuel' d' (sepOut tl) := by
  obtain ⟨b₁, f, n, c, n', e, hb, hf, hn, hc, hn'⟩ := h
  obtain ⟨d', hd⟩ := hb.read d
  refine ⟨d', fun fuel tl htl hl => ?_⟩
  have ea : b ++ x :: tl = b₁ ++ f :: (n ++ c :: (n' ++ x :: tl)) := by rw [e]; simp
  have hlb : b.length = b₁.length + (n.length + (n'.length + 1) + 1) := by rw [e]; simp
  obtain ⟨⟨k, hk, p⟩, _⟩ := hd (f :: (n ++ c :: (n' ++ x :: tl))) fuel (by simp) (by rw [cur_cons, hf]; decide) (by rw [cur_cons, hf]; decide) (by omega)
  cases k with
  | zero => omega
  | succ k =>
    refine ⟨k, by omega, ?_⟩
    rw [ea, p, parseFields_val env k d' f n c n' x tl hf hn hc hn' (by rw [hx]; decide),
      parseVal_other env k x tl htl (by rw [hx]; decide) (by rw [hx]; decide) (by rw [hx]; decide) (by rw [hx]; decide)]
    rfl

theorem parseOut_eq (env : Env) (o : Token) (ho : o.kind = .outOpen) (r : List Token) (hr : r ≠ []) :
    (parseOut env (o :: r)).map Prod.fst = (parseFields env (r.length + 2) [] r).map Prod.fst := by
  unfold parseOut
  rw [expect_cons ho hr]
  simp only [bind, Except.bind, List.length_cons]
  rw [parseFields_skipNl]
  cases parseFields env (r.length + 1 + 1) [] r with
  | error e => rfl
  | ok p => rfl

/-- C104, exactly: the fields of a block do not depend on what follows its first closing brace if and only if its last field has a value. -/
theorem C104_exact_partial (env : Env) (b : List Token) (hb : Inner b) (o x : Token) (ho : o.kind = .outOpen) (hx : x.kind = .outClose) :
    (∀ tl tl', Closed tl → Closed tl' →
      (parseOut env (o :: (b ++ x :: tl))).map Prod.fst = (parseOut env (o :: (b ++ x :: tl'))).map Prod.fst) ↔ ¬ Dangling env b := by
  refine ⟨fun h hd => ?_, fun h tl tl' hc hc' => ?_⟩
  · obtain ⟨d', hd'⟩ := hd.read x hx []
    have key : ∀ s : Str, ∃ tl, Closed tl ∧ (parseOut env (o :: (b ++ x :: tl))).map Prod.fst = .ok (Dict.set d' [] (.str s)) := by
      intro s
      refine ⟨[⟨.ident, [], 0, 0⟩, ⟨.colon, [], 0, 0⟩, ⟨.str, s, 0, 0⟩, ⟨.eof, [], 0, 0⟩],
        ⟨[⟨.ident, [], 0, 0⟩, ⟨.colon, [], 0, 0⟩, ⟨.str, s, 0, 0⟩], ⟨.eof, [], 0, 0⟩, rfl, rfl, ?_⟩, ?_⟩
      · intro t ht
        simp only [List.mem_cons, List.not_mem_nil, or_false] at ht
        rcases ht with rfl | rfl | rfl <;> exact Kind.noConfusion
      · rw [parseOut_eq env o ho _ (by simp)]
        obtain ⟨k, hk, p⟩ := hd' _ [⟨.ident, [], 0, 0⟩, ⟨.colon, [], 0, 0⟩, ⟨.str, s, 0, 0⟩, ⟨.eof, [], 0, 0⟩] (by simp)
          (show b.length < (b ++ x :: [⟨.ident, [], 0, 0⟩, ⟨.colon, [], 0, 0⟩, ⟨.str, s, 0, 0⟩, ⟨.eof, [], 0, 0⟩]).length + 2 by simp; omega)
        simp only [List.length_append, List.length_cons, List.length_nil] at hk
        rw [p]
        cases k with
        | zero => omega
        | succ k =>
          cases k with
          | zero => omega
          | succ k => rfl
    obtain ⟨t1, c1, e1⟩ := key []
    obtain ⟨t2, c2, e2⟩ := key ['a']
    have := h t1 t2 c1 c2
    rw [e1, e2] at this
    have e3 : Dict.set d' ([] : Str) (OutVal.str []) = Dict.set d' [] (.str ['a']) := Except.ok.inj this
    have e4 := congrArg (fun d => Dict.get? d ([] : Str)) e3
    simp only [Dict.get?_set, if_true] at e4
    cases e4
  · rw [parseOut_eq env o ho _ (by simp), parseOut_eq env o ho _ (by simp)]
    rcases block_or_error env x hx b.length b (Nat.le_refl _) hb with hbl | hd | ⟨e, he⟩
    · obtain ⟨d', hd'⟩ := hbl.read []
      have key : ∀ tl, (parseFields env ((b ++ x :: tl).length + 2) [] (b ++ x :: tl)).map Prod.fst = .ok d' := by
        intro tl
        obtain ⟨⟨k, hk, p⟩, _⟩ := hd' (x :: tl) ((b ++ x :: tl).length + 2) (by simp) (by rw [cur_cons, hx]; decide) (by rw [cur_cons, hx]; decide) (by simp; omega)
        rw [p]
        simp only [List.length_append, List.length_cons] at hk
        cases k with
        | zero => omega
        | succ k => rw [parseFields_stop env k d' x tl (Or.inl hx)]; rfl
      rw [key, key]
    · exact absurd hd h
    · rw [(he [] _ tl (by simp; omega)).1, (he [] _ tl' (by simp; omega)).1]

/-- Non-vacuity: the tokens of `a: [x], b:` form such a body and its last field has no value; those of `a: [x], b: c` have one. -/
example : Dangling asciiEnv [⟨.ident, ['a'], 1, 1⟩, ⟨.colon, [':'], 1, 2⟩, ⟨.lbracket, ['['], 1, 4⟩, ⟨.ident, ['x'], 1, 5⟩, ⟨.rbracket, [']'], 1, 6⟩, ⟨.comma, [','], 1, 7⟩,
    ⟨.ident, ['b'], 1, 9⟩, ⟨.colon, [':'], 1, 10⟩] := by
  have nn : Newlines [] := fun t ht => absurd ht (List.not_mem_nil)
  exact ⟨[⟨.ident, ['a'], 1, 1⟩, ⟨.colon, [':'], 1, 2⟩, ⟨.lbracket, ['['], 1, 4⟩, ⟨.ident, ['x'], 1, 5⟩, ⟨.rbracket, [']'], 1, 6⟩, ⟨.comma, [','], 1, 7⟩],
    ⟨.ident, ['b'], 1, 9⟩, [], ⟨.colon, [':'], 1, 10⟩, [], rfl,
    .field _ [] _ [] [⟨.lbracket, ['['], 1, 4⟩, ⟨.ident, ['x'], 1, 5⟩, ⟨.rbracket, [']'], 1, 6⟩] _ rfl nn rfl nn
      (.array _ [⟨.ident, ['x'], 1, 5⟩] _ rfl (.item _ _ rfl .nil) rfl) (.skip _ _ (by decide) (by decide) (by decide) .nil), rfl, nn, rfl, nn⟩

example : ¬ Dangling asciiEnv [⟨.ident, ['a'], 1, 1⟩, ⟨.colon, [':'], 1, 2⟩, ⟨.lbracket, ['['], 1, 4⟩, ⟨.ident, ['x'], 1, 5⟩, ⟨.rbracket, [']'], 1, 6⟩, ⟨.comma, [','], 1, 7⟩,
    ⟨.ident, ['b'], 1, 9⟩, ⟨.colon, [':'], 1, 10⟩, ⟨.ident, ['c'], 1, 12⟩] := by
  rintro ⟨b₁, f, n, c, n', e, _, _, hn, hc, hn'⟩
  have e' : some (⟨.ident, ['c'], 1, 12⟩ : Token) = _ := congrArg List.getLast? e
  rw [List.getLast?_append] at e'
  have hl : ∀ t, (n ++ c :: n').getLast? = some t → t.kind = .newline ∨ t.kind = .colon := by
    intro t ht
    rw [List.getLast?_append, List.getLast?_cons] at ht
    cases hg : n'.getLast? with
    | none => rw [hg] at ht; simp at ht; subst ht; exact Or.inr hc
    | some u =>
      rw [hg] at ht; simp at ht; subst ht
      exact Or.inl (hn' u (List.mem_of_getLast? hg))
  cases hg : (n ++ c :: n').getLast? with
  | none => rw [List.getLast?_eq_none_iff] at hg; simp at hg
  | some t =>
    rw [List.getLast?_cons, hg] at e'
    simp at e'
    rcases hl t hg with h | h <;> rw [← e'] at h <;> cases h

end Verif.Parser
