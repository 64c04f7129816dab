import Verif.Model.Lexer

/-!
# LNDL lexer: C45, C46, C103
-/

set_option linter.unusedSectionVars false
set_option linter.unusedSimpArgs false
set_option linter.unusedVariables false

namespace Verif.Lexer

/-! ### Specification of positions -/

/-- 1-indexed line of the character at offset `i`. -/
def lineOf (text : List Char) (i : Nat) : Nat := 1 + (text.take i).count '\n'

/-- 1-indexed column of the character at offset `i`: characters since the last newline, plus one. -/
def columnOf (text : List Char) (i : Nat) : Nat := 1 + ((text.take i).reverse.takeWhile (fun c => c != '\n')).length

/-- The token is spelled at offset `i`: the end of the text for `EOF`, a quote for a string, its own value otherwise. -/
def SpelledAt (text : List Char) (t : Token) (i : Nat) : Prop :=
  match t.kind with
  | .eof => i = text.length
  | .str => ∃ q rest, (q = '"' ∨ q = '\'') ∧ text.drop i = q :: rest
  | _ => t.value ≠ [] ∧ t.value <+: text.drop i

/-! ### Progress of one iteration -/

theorem takeWhile_pos {α : Type} {p : α → Bool} {c : α} {r : List α} (h : p c = true) : 1 ≤ ((c :: r).takeWhile p).length := by
  rw [List.takeWhile_cons_of_pos h]; simp

theorem takeWhile_len {α : Type} (p : α → Bool) (l : List α) : (l.takeWhile p).length ≤ l.length :=
  (List.takeWhile_sublist p).length_le

theorem strBody_len (q : Char) (l : List Char) : (strBody q l).2 ≤ l.length := by
  have key : ∀ n, ∀ l : List Char, l.length ≤ n → (strBody q l).2 ≤ l.length := by
    intro n
    induction n with
    | zero =>
      intro l h
      have : l = [] := List.length_eq_zero_iff.1 (by omega)
      subst this; simp [strBody]
    | succ n ih =>
      intro l h
      match l with
      | [] => simp [strBody]
      | [c] =>
        simp only [strBody]
        split
        · simp
        · split <;> simp
      | c :: e :: r =>
        simp only [strBody]
        split
        · simp
        · split
          · have := ih r (by simp only [List.length_cons] at h; omega)
            simp only [List.length_cons]; omega
          · have := ih (e :: r) (by simp only [List.length_cons] at h ⊢; omega)
            simp only [List.length_cons] at this ⊢; omega
  exact key l.length l (Nat.le_refl _)

theorem isPrefixOf_iff {p t : List Char} : startsWith p t = true ↔ p <+: t := by
  unfold startsWith; exact List.isPrefixOf_iff_prefix

/-- What one iteration can emit: a token spelled at the front of the text. -/
def FrontOk (k : Kind) (v t : List Char) : Prop :=
  match k with
  | .eof => False
  | .str => ∃ q rest, (q = '"' ∨ q = '\'') ∧ t = q :: rest
  | _ => v ≠ [] ∧ v <+: t

theorem takeWhile_prefix' {α : Type} (p : α → Bool) (l : List α) : l.takeWhile p <+: l := List.takeWhile_prefix p

theorem lexTag_ok (inOut : Bool) (t : List Char) (ht : t ≠ []) :
    1 ≤ (lexTag inOut t).n ∧ (lexTag inOut t).n ≤ t.length ∧ ∀ k v, (lexTag inOut t).tok = some (k, v) → FrontOk k v t := by
  have hl : ∀ p : List Char, startsWith p t = true → p.length ≤ t.length := by
    intro p h; exact (isPrefixOf_iff.1 h).length_le
  have hpos : 1 ≤ t.length := by
    cases t with
    | nil => exact absurd rfl ht
    | cons => simp
  unfold lexTag
  split
  · next h =>
    refine ⟨by simp, by have := hl _ h; simpa using this, ?_⟩
    intro k v e; cases e
    exact ⟨by decide, isPrefixOf_iff.1 h⟩
  · split
    · next h =>
      refine ⟨by simp, by have := hl _ h; simpa using this, ?_⟩
      intro k v e; cases e
      exact ⟨by decide, isPrefixOf_iff.1 h⟩
    · split
      · next h =>
        refine ⟨by simp, by have := hl _ h; simpa using this, ?_⟩
        intro k v e; cases e
        exact ⟨by decide, isPrefixOf_iff.1 h⟩
      · split
        · next h =>
          refine ⟨by simp, by have := hl _ h; simpa using this, ?_⟩
          intro k v e; cases e
          exact ⟨by decide, isPrefixOf_iff.1 h⟩
        · exact ⟨by simp, hpos, fun k v e => by cases e⟩

theorem punct_not {c : Char} {k : Kind} (h : punct c = some k) : k ≠ .eof ∧ k ≠ .str := by
  unfold punct at h
  repeat' (split at h; · cases h; exact ⟨by simp, by simp⟩)
  cases h

theorem frontOk_of {k : Kind} {v t : List Char} (h1 : k ≠ .eof ∧ k ≠ .str) (h2 : v ≠ [] ∧ v <+: t) : FrontOk k v t := by
  cases k <;> first | exact absurd rfl h1.1 | exact absurd rfl h1.2 | exact h2

theorem lexOne_ok {cc : CharClass} (ok : cc.Ok) (inOut : Bool) (c : Char) (r : List Char) :
    1 ≤ (lexOne cc inOut c r).n ∧ (lexOne cc inOut c r).n ≤ (c :: r).length ∧
      ∀ k v, (lexOne cc inOut c r).tok = some (k, v) → FrontOk k v (c :: r) := by
  unfold lexOne
  split
  · next h => exact ⟨takeWhile_pos h, takeWhile_len _ _, fun k v e => by cases e⟩
  · split
    · next h =>
      subst h
      refine ⟨by simp, by simp, ?_⟩
      intro k v e; cases e
      exact ⟨by simp, by simp⟩
    · split
      · exact lexTag_ok inOut _ (by simp)
      · split
        · next h =>
          refine ⟨by simp, by have := (isPrefixOf_iff.1 h).length_le; simpa using this, ?_⟩
          intro k v e; cases e
          exact ⟨by decide, isPrefixOf_iff.1 h⟩
        · split
          · next h =>
            have hid : isIdChar cc c = true := by
              simp only [Bool.or_eq_true, beq_iff_eq] at h
              rcases h with h | h
              · simp [isIdChar, ok.alpha_alnum c h]
              · simp [isIdChar, h]
            refine ⟨takeWhile_pos hid, takeWhile_len _ _, ?_⟩
            intro k v e; cases e
            refine ⟨?_, takeWhile_prefix' _ _⟩
            rw [List.takeWhile_cons_of_pos hid]; simp
          · split
            · next h =>
              refine ⟨by simp, by have := takeWhile_len (isNumChar cc) r; simp only [List.length_cons]; omega, ?_⟩
              intro k v e; cases e
              refine ⟨by simp, ?_⟩
              rw [h.1]
              exact List.prefix_cons_inj _ |>.2 (takeWhile_prefix' _ _)
            · split
              · next h =>
                have hn : isNumChar cc c = true := by simp [isNumChar, h]
                refine ⟨takeWhile_pos hn, takeWhile_len _ _, ?_⟩
                intro k v e; cases e
                refine ⟨?_, takeWhile_prefix' _ _⟩
                rw [List.takeWhile_cons_of_pos hn]; simp
              · split
                · next h =>
                  refine ⟨by simp, by have := strBody_len c r; simp only [List.length_cons]; omega, ?_⟩
                  intro k v e; cases e
                  exact ⟨c, r, h.1, rfl⟩
                · split
                  · next k' hp =>
                    refine ⟨by simp, by simp, ?_⟩
                    intro k v e
                    cases e
                    exact frontOk_of (punct_not hp) ⟨by simp, by simp⟩
                  · exact ⟨by simp, by simp, fun k v e => by cases e⟩

/-! ### C45 -/

theorem go_total {cc : CharClass} (ok : cc.Ok) (fuel : Nat) (inOut : Bool) (p : Nat × Nat) (t : List Char) (hf : t.length ≤ fuel) :
    ∃ ts, go cc fuel inOut p t = some ts := by
  induction fuel generalizing inOut p t with
  | zero =>
    have : t = [] := List.length_eq_zero_iff.1 (by omega)
    subst this; exact ⟨_, rfl⟩
  | succ fuel ih =>
    cases t with
    | nil => exact ⟨_, rfl⟩
    | cons c r =>
      obtain ⟨h1, h2, _⟩ := lexOne_ok ok inOut c r
      obtain ⟨ts, hts⟩ := ih (lexOne cc inOut c r).inOut (move p ((c :: r).take (lexOne cc inOut c r).n)) ((c :: r).drop (lexOne cc inOut c r).n)
        (by rw [List.length_drop]; omega)
      exact ⟨_, by rw [go, hts]; rfl⟩

/-- C45, termination: every text is tokenized. -/
theorem C45_total {cc : CharClass} (ok : cc.Ok) (text : List Char) : ∃ ts, tokenize cc text = some ts :=
  go_total ok _ _ _ _ (Nat.le_refl _)

/-- Invariant of the loop at the text `pre ++ t`. -/
theorem go_spec {cc : CharClass} (ok : cc.Ok) (fuel : Nat) (inOut : Bool) (pre t : List Char) (ts : List Token)
    (h : go cc fuel inOut (move (1, 1) pre) t = some ts) :
    ∃ offs : List Nat, offs.length = ts.length ∧ offs.Pairwise (· < ·) ∧ (∀ o ∈ offs, pre.length ≤ o) ∧
      (∀ (i : Nat) tok o, ts[i]? = some tok → offs[i]? = some o →
        SpelledAt (pre ++ t) tok o ∧ (tok.line, tok.column) = move (1, 1) ((pre ++ t).take o)) ∧
      ∃ init last, ts = init ++ [last] ∧ last.kind = .eof ∧ ∀ x ∈ init, x.kind ≠ .eof := by
  induction fuel generalizing inOut pre t ts with
  | zero =>
    cases t with
    | cons => cases h
    | nil =>
      cases h
      refine ⟨[pre.length], rfl, by simp, by simp, ?_, [], _, rfl, rfl, by simp⟩
      intro i tok o h1 h2
      cases i with
      | zero =>
        simp at h1 h2; subst h1; subst h2
        exact ⟨by simp [SpelledAt, mkTok], by simp [mkTok]⟩
      | succ i => simp at h1
  | succ fuel ih =>
    cases t with
    | nil =>
      cases h
      refine ⟨[pre.length], rfl, by simp, by simp, ?_, [], _, rfl, rfl, by simp⟩
      intro i tok o h1 h2
      cases i with
      | zero =>
        simp at h1 h2; subst h1; subst h2
        exact ⟨by simp [SpelledAt, mkTok], by simp [mkTok]⟩
      | succ i => simp at h1
    | cons c r =>
      obtain ⟨h1, h2, h3⟩ := lexOne_ok ok inOut c r
      rw [go] at h
      generalize hone : lexOne cc inOut c r = one at h h1 h2 h3
      rw [Option.map_eq_some_iff] at h
      obtain ⟨ts', hts', rfl⟩ := h
      have hmove : move (move (1, 1) pre) ((c :: r).take one.n) = move (1, 1) (pre ++ (c :: r).take one.n) := by
        simp [move, List.foldl_append]
      rw [hmove] at hts'
      obtain ⟨offs, e1, e2, e3, e4, e5⟩ := ih _ _ _ _ hts'
      have htext : (pre ++ (c :: r).take one.n) ++ (c :: r).drop one.n = pre ++ c :: r := by
        rw [List.append_assoc, List.take_append_drop]
      rw [htext] at e4
      have hlen : (pre ++ (c :: r).take one.n).length = pre.length + one.n := by
        rw [List.length_append, List.length_take]; omega
      rw [hlen] at e3
      cases htok : one.tok with
      | none =>
        simp only [push]
        exact ⟨offs, e1, e2, fun o ho => Nat.le_trans (Nat.le_add_right _ _) (e3 o ho), e4, e5⟩
      | some kv =>
        obtain ⟨k, v⟩ := kv
        have hfr := h3 k v htok
        simp only [push]
        refine ⟨pre.length :: offs, by simp [e1], ?_, ?_, ?_, ?_⟩
        · rw [List.pairwise_cons]
          refine ⟨fun o ho => ?_, e2⟩
          have := e3 o ho; omega
        · intro o ho
          rw [List.mem_cons] at ho
          rcases ho with rfl | ho
          · exact Nat.le_refl _
          · have := e3 o ho; omega
        · intro i tok o hi ho
          cases i with
          | zero =>
            simp at hi ho; subst hi; subst ho
            refine ⟨?_, by simp [mkTok]⟩
            unfold SpelledAt mkTok
            have hd : (pre ++ c :: r).drop pre.length = c :: r := by simp
            simp only [hd]
            unfold FrontOk at hfr
            cases k <;> first | exact hfr.elim | exact hfr
          | succ i =>
            simp at hi ho
            exact e4 i tok o hi ho
        · obtain ⟨init, last, e6, e7, e8⟩ := e5
          refine ⟨mkTok (move (1, 1) pre) k v :: init, last, by rw [e6]; rfl, e7, ?_⟩
          intro x hx
          rw [List.mem_cons] at hx
          rcases hx with rfl | hx
          · simp only [mkTok]
            intro e
            subst e
            exact hfr
          · exact e8 x hx

theorem move_fst (p : Nat × Nat) (cs : List Char) : (move p cs).1 = p.1 + cs.count '\n' := by
  induction cs generalizing p with
  | nil => simp [move]
  | cons c cs ih =>
    have := ih (stepPos p c)
    unfold move at this ⊢
    rw [List.foldl_cons, this]
    unfold stepPos
    by_cases h : c = '\n'
    · subst h; simp; omega
    · simp [h]

/-- Length of the last line of a text. -/
def trail (cs : List Char) : Nat := (cs.reverse.takeWhile (fun c => c != '\n')).length

theorem move_snd (p : Nat × Nat) (cs : List Char) : (move p cs).2 = if '\n' ∈ cs then trail cs else p.2 + trail cs := by
  have key : ∀ rs : List Char, (move p rs.reverse).2 = if '\n' ∈ rs.reverse then trail rs.reverse else p.2 + trail rs.reverse := by
    intro rs
    induction rs with
    | nil => simp [move, trail]
    | cons c rs ih =>
      have hm : move p (c :: rs).reverse = stepPos (move p rs.reverse) c := by
        simp [move, List.foldl_append]
      rw [hm]
      unfold stepPos
      by_cases h : c = '\n'
      · subst h
        simp [trail]
      · have h' : ('\n' : Char) ≠ c := fun e => h e.symm
        rw [if_neg h]
        simp only [ih]
        have ht : trail (c :: rs).reverse = trail rs.reverse + 1 := by
          simp [trail, h]
        rw [ht]
        simp only [List.reverse_cons, List.mem_append, List.mem_singleton, h', or_false]
        split <;> omega
  have := key cs.reverse
  simpa using this

/-- C45: for every text the result is a list of tokens ending in the only `EOF`; every token is spelled at an offset of the text, offsets strictly increase, and every token's line is the 1-indexed line of its first
character. -/
theorem C45_faithful {cc : CharClass} (ok : cc.Ok) (text : List Char) :
    ∃ (ts : List Token) (offs : List Nat), tokenize cc text = some ts ∧
      (∃ init last, ts = init ++ [last] ∧ last.kind = .eof ∧ ∀ x ∈ init, x.kind ≠ .eof) ∧
      offs.length = ts.length ∧ offs.Pairwise (· < ·) ∧
      ∀ (i : Nat) tok o, ts[i]? = some tok → offs[i]? = some o → SpelledAt text tok o ∧ tok.line = lineOf text o := by
  obtain ⟨ts, hts⟩ := C45_total ok text
  obtain ⟨offs, e1, e2, e3, e4, e5⟩ := go_spec ok text.length false [] text ts hts
  refine ⟨ts, offs, hts, e5, e1, e2, ?_⟩
  intro i tok o hi ho
  obtain ⟨h1, h2⟩ := e4 i tok o hi ho
  refine ⟨h1, ?_⟩
  have := move_fst (1, 1) ((([] : List Char) ++ text).take o)
  rw [← h2] at this
  exact this

theorem count_take_mono (text : List Char) {a b : Nat} (h : a ≤ b) : (text.take a).count '\n' ≤ (text.take b).count '\n' := by
  have : text.take a <+: text.take b := List.take_prefix_take_left h
  exact this.sublist.count_le _

/-- C45: token lines never decrease. -/
theorem C45_lines_monotone {cc : CharClass} (ok : cc.Ok) (text : List Char) (ts : List Token) (h : tokenize cc text = some ts)
    (i j : Nat) (a b : Token) (hij : i ≤ j) (hi : ts[i]? = some a) (hj : ts[j]? = some b) : a.line ≤ b.line := by
  obtain ⟨ts', offs, h1, _, h3, h4, h5⟩ := C45_faithful ok text
  rw [h] at h1
  cases h1
  have hil : i < offs.length := by
    rw [h3]; exact (List.getElem?_eq_some_iff.1 hi).1
  have hjl : j < offs.length := by
    rw [h3]; exact (List.getElem?_eq_some_iff.1 hj).1
  obtain ⟨_, h6⟩ := h5 i a offs[i] hi (List.getElem?_eq_getElem hil)
  obtain ⟨_, h7⟩ := h5 j b offs[j] hj (List.getElem?_eq_getElem hjl)
  rw [h6, h7]
  have hle : offs[i] ≤ offs[j] := by
    rcases Nat.lt_or_ge i j with hlt | hge
    · exact Nat.le_of_lt (List.pairwise_iff_getElem.1 h4 i j hil hjl hlt)
    · have : i = j := by omega
      subst this; exact Nat.le_refl _
  unfold lineOf
  have := count_take_mono text hle
  omega

/-! ### C103: columns -/

/-- C103, exactly what the lexer reports: the 1-indexed column on the first line, and one less than it on every later line. -/
theorem C103_columns_partial {cc : CharClass} (ok : cc.Ok) (text : List Char) :
    ∃ (ts : List Token) (offs : List Nat), tokenize cc text = some ts ∧ offs.length = ts.length ∧ offs.Pairwise (· < ·) ∧
      ∀ (i : Nat) tok o, ts[i]? = some tok → offs[i]? = some o → SpelledAt text tok o ∧
        (lineOf text o = 1 → tok.column = columnOf text o) ∧ (lineOf text o ≠ 1 → tok.column + 1 = columnOf text o) := by
  obtain ⟨ts, hts⟩ := C45_total ok text
  obtain ⟨offs, e1, e2, e3, e4, e5⟩ := go_spec ok text.length false [] text ts hts
  refine ⟨ts, offs, hts, e1, e2, ?_⟩
  intro i tok o hi ho
  obtain ⟨h1, h2⟩ := e4 i tok o hi ho
  have hs := move_snd (1, 1) ((([] : List Char) ++ text).take o)
  rw [← h2] at hs
  simp only [List.nil_append] at hs
  refine ⟨h1, ?_, ?_⟩
  · intro hl
    have : '\n' ∉ text.take o := by
      unfold lineOf at hl
      exact List.count_eq_zero.1 (by omega)
    rw [if_neg this] at hs
    rw [hs]; rfl
  · intro hl
    have : '\n' ∈ text.take o := by
      unfold lineOf at hl
      exact List.count_pos_iff.1 (by omega)
    rw [if_pos this] at hs
    unfold columnOf
    rw [hs]; unfold trail; omega

/-- The first token of the second line is reported in column 0, not 1. -/
theorem C103_columns_violation :
    tokenize asciiClass "a\nb".toList = some [⟨.ident, ['a'], 1, 1⟩, ⟨.newline, ['\n'], 1, 2⟩, ⟨.ident, ['b'], 2, 0⟩, ⟨.eof, [], 2, 1⟩] := by decide

theorem asciiClass_ok : asciiClass.Ok where
  alpha_alnum := fun c h => by simp [asciiClass, Char.isAlphanum] at h ⊢; exact Or.inl h
  digit_alnum := fun c h => by simp [asciiClass, Char.isAlphanum] at h ⊢; exact Or.inr h
  punct := by decide

/-! ### C46: string literals -/

/-- A literal for `s` in quotes `q`: backslash and the quote are escaped; newline, tab and carriage return are written as escapes. -/
def escape (q : Char) (c : Char) : List Char :=
  if c = '\\' ∨ c = q then ['\\', c]
  else if c = '\n' then ['\\', 'n']
  else if c = '\t' then ['\\', 't']
  else if c = '\r' then ['\\', 'r']
  else [c]

def literal (q : Char) (s : List Char) : List Char := q :: s.flatMap (escape q) ++ [q]

theorem strBody_plain (q c : Char) (h1 : c ≠ q) (h2 : c ≠ '\\') (r : List Char) :
    strBody q (c :: r) = (c :: (strBody q r).1, (strBody q r).2 + 1) := by
  cases r with
  | nil => simp [strBody, h1, h2]
  | cons e r => simp [strBody, h1, h2]

theorem strBody_escape (q e : Char) (hq : q ≠ '\\') (r : List Char) :
    strBody q ('\\' :: e :: r) = (unescape e :: (strBody q r).1, (strBody q r).2 + 2) := by
  have : ('\\' : Char) ≠ q := fun h => hq h.symm
  simp [strBody, this]

theorem strBody_literal (q : Char) (hq : q = '"' ∨ q = '\'') (s rest : List Char) :
    strBody q (s.flatMap (escape q) ++ q :: rest) = (s, (s.flatMap (escape q)).length + 1) := by
  have hq' : q ≠ '\\' := by rcases hq with rfl | rfl <;> decide
  induction s with
  | nil =>
    cases rest with
    | nil => simp [strBody]
    | cons => simp [strBody]
  | cons c s ih =>
    rw [List.flatMap_cons, List.append_assoc]
    by_cases h1 : c = '\\' ∨ c = q
    · have he : escape q c = ['\\', c] := by simp [escape, h1]
      have hu : unescape c = c := by
        rcases h1 with rfl | rfl
        · decide
        · rcases hq with rfl | rfl <;> decide
      rw [he]
      simp only [List.cons_append, List.nil_append]
      rw [strBody_escape q c hq', ih, hu]
      simp
    · rw [not_or] at h1
      by_cases h2 : c = '\n'
      · subst h2
        have he : escape q '\n' = ['\\', 'n'] := by simp [escape, h1]
        rw [he]
        simp only [List.cons_append, List.nil_append]
        rw [strBody_escape q 'n' hq', ih]
        simp [unescape]
      · by_cases h3 : c = '\t'
        · subst h3
          have he : escape q '\t' = ['\\', 't'] := by simp [escape, h1]
          rw [he]
          simp only [List.cons_append, List.nil_append]
          rw [strBody_escape q 't' hq', ih]
          simp [unescape]
        · by_cases h4 : c = '\r'
          · subst h4
            have he : escape q '\r' = ['\\', 'r'] := by simp [escape, h1]
            rw [he]
            simp only [List.cons_append, List.nil_append]
            rw [strBody_escape q 'r' hq', ih]
            simp [unescape]
          · have he : escape q c = [c] := by simp [escape, h1, h2, h3, h4]
            rw [he]
            simp only [List.cons_append, List.nil_append]
            rw [strBody_plain q c h1.2 h1.1, ih]
            simp

/-- C46: inside an `OUT{}` block the literal of any string `s` is read as one `STR` token with value `s`, and lexing continues with what follows the literal. -/
theorem C46_roundtrip {cc : CharClass} (ok : cc.Ok) (q : Char) (hq : q = '"' ∨ q = '\'') (s rest : List Char) (fuel : Nat) (p : Nat × Nat) :
    go cc (fuel + 1) true p (literal q s ++ rest) =
      (go cc fuel true (move p (literal q s)) rest).map (fun ts => ⟨.str, s, p.1, p.2⟩ :: ts) := by
  have hal : cc.isAlnum q = false := ok.punct q (by rcases hq with rfl | rfl <;> decide)
  have h1 : cc.isAlpha q = false := by
    cases h : cc.isAlpha q with
    | false => rfl
    | true => rw [ok.alpha_alnum q h] at hal; cases hal
  have h2 : cc.isDigit q = false := by
    cases h : cc.isDigit q with
    | false => rfl
    | true => rw [ok.digit_alnum q h] at hal; cases hal
  have hone : lexOne cc true q (s.flatMap (escape q) ++ q :: rest) = ⟨some (.str, s), (s.flatMap (escape q)).length + 2, true⟩ := by
    unfold lexOne
    have e1 : isWs q = false := by rcases hq with rfl | rfl <;> decide
    have e2 : q ≠ '\n' := by rcases hq with rfl | rfl <;> decide
    have e3 : q ≠ '<' := by rcases hq with rfl | rfl <;> decide
    have e4 : startsWith "OUT{".toList (q :: (s.flatMap (escape q) ++ q :: rest)) = false := by
      rcases hq with rfl | rfl <;> simp [startsWith, List.isPrefixOf]
    have e5 : (cc.isAlpha q || q == '_') = false := by
      rw [h1]; rcases hq with rfl | rfl <;> decide
    have e6 : ¬ (q = '-' ∧ true = true ∧ digitNext cc (s.flatMap (escape q) ++ q :: rest) = true) := by
      intro h
      have := h.1
      rcases hq with rfl | rfl <;> revert this <;> decide
    rw [e1, if_neg (by simp), if_neg e2, if_neg e3, e4, if_neg (by simp), e5, if_neg (by simp), if_neg e6, h2, if_neg (by simp),
      if_pos ⟨hq, rfl⟩, strBody_literal q hq]
  have hlit : literal q s ++ rest = q :: (s.flatMap (escape q) ++ q :: rest) := by
    simp [literal]
  have hlen : (literal q s).length = (s.flatMap (escape q)).length + 2 := by simp [literal]
  rw [hlit, go, hone]
  have ht : (q :: (s.flatMap (escape q) ++ q :: rest)).take ((s.flatMap (escape q)).length + 2) = literal q s := by
    rw [← hlit, ← hlen, List.take_left']
    rfl
  have hd : (q :: (s.flatMap (escape q) ++ q :: rest)).drop ((s.flatMap (escape q)).length + 2) = rest := by
    rw [← hlit, ← hlen, List.drop_left']
    rfl
  simp only [ht, hd]
  rfl

/-- Non-vacuity: a string with quotes, a backslash and a newline. -/
example : (tokenize asciiClass ("OUT{".toList ++ literal '"' "a\"\\\nb".toList ++ "}".toList)).map (·.map (fun t => (t.kind, t.value))) =
    some [(.outOpen, "OUT{".toList), (.str, "a\"\\\nb".toList), (.outClose, ['}']), (.eof, [])] := by decide

end Verif.Lexer
