import Verif.Props.ParserClose

/-!
# C291: which fields written in the OUT block arrive
-/

set_option linter.unusedSectionVars false
set_option linter.unusedSimpArgs false
set_option linter.unusedVariables false

namespace Verif.Parser

open Verif.Lexer

/-! ### Specification -/

/-- The tokens after line breaks. -/
def past : List Token → List Token
  | [] => []
  | t :: r => if t.kind = .newline then past r else t :: r

/-- The next token is a colon. -/
def colonNext : List Token → Bool
  | [] => false
  | t :: _ => decide (t.kind = .colon)

/-- The token is the name of a field: a name that is followed by a colon. -/
def isName (t : Token) (r : List Token) : Bool := decide (t.kind = .ident) && colonNext (past r)

/-- The names of the fields that are written, in order. -/
def names : List Token → List Str
  | [] => []
  | t :: r => if isName t r then t.value :: names r else names r

/-- The text begins with a value: an array, a string, a number, or a name that is not itself the name of a field. -/
def HasValue : List Token → Prop
  | [] => False
  | t :: r => t.kind = .lbracket ∨ t.kind = .str ∨ t.kind = .num ∨ (t.kind = .ident ∧ isName t r = false)

/-- After each `name:` there is a value. -/
def Valued : List Token → Prop
  | [] => True
  | t :: r => (isName t r = true → HasValue (past (past r).tail)) ∧ Valued r

/-! ### The parser -/

theorem past_cons_of_ne {t : Token} (r : List Token) (h : t.kind ≠ .newline) : past (t :: r) = t :: r := by rw [past, if_neg h]

theorem past_append {n : List Token} (hn : Newlines n) (r : List Token) : past (n ++ r) = past r := by
  induction n with
  | nil => rfl
  | cons t n ih =>
    rw [List.cons_append, past, if_pos (hn t (List.mem_cons_self ..))]
    exact ih (fun u hu => hn u (List.mem_cons_of_mem _ hu))

theorem isName_skip {t : Token} {r : List Token} (h : t.kind ≠ .ident) : isName t r = false := by simp [isName, h]

theorem names_skip {t : Token} {r : List Token} (h : t.kind ≠ .ident) : names (t :: r) = names r := by simp [names, isName_skip h]

theorem valued_skip {t : Token} {r : List Token} (h : t.kind ≠ .ident) : Valued (t :: r) ↔ Valued r := by simp [Valued, isName_skip h]

theorem names_plain {n : List Token} (hn : ∀ t ∈ n, t.kind ≠ .ident) (r : List Token) : names (n ++ r) = names r ∧ (Valued (n ++ r) ↔ Valued r) := by
  induction n with
  | nil => exact ⟨rfl, Iff.rfl⟩
  | cons t n ih =>
    have ih := ih (fun u hu => hn u (List.mem_cons_of_mem _ hu))
    have ht := hn t (List.mem_cons_self ..)
    rw [List.cons_append, names_skip ht, valued_skip ht]
    exact ih

theorem Newlines.plain {n : List Token} (hn : Newlines n) : ∀ t ∈ n, t.kind ≠ .ident := fun t ht => by rw [hn t ht]; decide

theorem isName_field {f c : Token} {n r : List Token} (hf : f.kind = .ident) (hn : Newlines n) (hc : c.kind = .colon) : isName f (n ++ c :: r) = true := by
  rw [isName, past_append hn, past_cons_of_ne r (by rw [hc]; decide)]
  simp [hf, colonNext, hc]

theorem names_rest {c : Token} {n n' r : List Token} (hn : Newlines n) (hc : c.kind = .colon) (hn' : Newlines n') :
    names (n ++ c :: (n' ++ r)) = names r ∧ (Valued (n ++ c :: (n' ++ r)) ↔ Valued r) := by
  have hc' : c.kind ≠ .ident := by rw [hc]; decide
  rw [(names_plain hn.plain _).1, (names_plain hn.plain _).2, names_skip hc', valued_skip hc']
  exact names_plain hn'.plain _

theorem names_field {f c : Token} {n n' r : List Token} (hf : f.kind = .ident) (hn : Newlines n) (hc : c.kind = .colon) (hn' : Newlines n') :
    names (f :: (n ++ c :: (n' ++ r))) = f.value :: names r := by
  rw [names, if_pos (isName_field hf hn hc), (names_rest hn hc hn').1]

theorem valued_field {f c t : Token} {n n' r : List Token} (hf : f.kind = .ident) (hn : Newlines n) (hc : c.kind = .colon) (hn' : Newlines n') (ht : t.kind ≠ .newline) :
    Valued (f :: (n ++ c :: (n' ++ (t :: r)))) ↔ HasValue (t :: r) ∧ Valued (t :: r) := by
  rw [Valued, (names_rest hn hc hn').2, isName_field hf hn hc, past_append hn, past_cons_of_ne _ (by rw [hc]; decide), List.tail_cons, past_append hn',
    past_cons_of_ne _ ht]
  simp

/-- No name of a field is written between the brackets of an array. -/
theorem Items.names {vs : List Token} (h : Items vs) (q : Token) (hq : q.kind = .rbracket) (b : List Token) :
    colonNext (past (vs ++ q :: b)) = false ∧ Parser.names (vs ++ q :: b) = Parser.names b ∧ (Valued (vs ++ q :: b) ↔ Valued b) := by
  have hqi : q.kind ≠ .ident := by rw [hq]; decide
  induction h with
  | nil =>
    refine ⟨?_, names_skip hqi, valued_skip hqi⟩
    rw [List.nil_append, past_cons_of_ne _ (by rw [hq]; decide)]
    simp [colonNext, hq]
  | nl t vs ht _ ih =>
    have h1 : t.kind ≠ .ident := by rw [ht]; decide
    rw [List.cons_append, names_skip h1, valued_skip h1, past, if_pos ht]
    exact ih
  | item t vs ht _ ih =>
    have h1 : isName t (vs ++ q :: b) = false := by rw [isName, ih.1]; simp
    refine ⟨?_, ?_, ?_⟩
    · rw [List.cons_append, past_cons_of_ne _ (by rw [ht]; decide)]; simp [colonNext, ht]
    · rw [List.cons_append, Parser.names, h1]; exact ih.2.1
    · rw [List.cons_append, Valued, h1]; simpa using ih.2.2
  | sep t n c vs ht hn hc _ ih =>
    have e : t :: (n ++ c :: vs) ++ q :: b = t :: (n ++ c :: (vs ++ q :: b)) := by simp
    have hci : c.kind ≠ .ident := by rw [hc]; decide
    have h1 : isName t (n ++ c :: (vs ++ q :: b)) = false := by
      rw [isName, past_append hn, past_cons_of_ne _ (by rw [hc]; decide)]
      simp [colonNext, hc]
    rw [e]
    refine ⟨?_, ?_, ?_⟩
    · rw [past_cons_of_ne _ (by rw [ht]; decide)]; simp [colonNext, ht]
    · rw [Parser.names, h1, (names_plain hn.plain _).1, names_skip hci]; exact ih.2.1
    · rw [Valued, h1, (names_plain hn.plain _).2, valued_skip hci]; simpa using ih.2.2

/-- The name that is read: none if the value is skipped. -/
def readName (f : Str) : Option OutVal → List Str
  | none => []
  | some _ => [f]

theorem Value.readName {env : Env} {vs : List Token} (h : Value env vs) (b : List Token) :
    ∃ v, (v = none → Parser.names (vs ++ b) = Parser.names b ∧ ¬ HasValue (vs ++ b)) ∧
      (∀ w, v = some w → (Parser.names (vs ++ b) = Parser.names b ∧ HasValue (vs ++ b) ∧ (Valued (vs ++ b) ↔ Valued b)) ∨
        ∃ n, Parser.names (vs ++ b) = n :: Parser.names b ∧ ¬ HasValue (vs ++ b)) ∧
      ∀ (fuel : Nat) (tl : List Token), tl ≠ [] → vs.length ≤ fuel → parseVal env fuel (vs ++ tl) = .ok (v, tl) := by
  cases h with
  | array l vs r hl hv hr =>
    obtain ⟨rs, hrs⟩ := hv.read
    refine ⟨some (.refs rs), nofun, fun w _ => Or.inl ?_, fun fuel tl htl hf => ?_⟩
    · have e : l :: (vs ++ [r]) ++ b = l :: (vs ++ r :: b) := by simp
      have hli : l.kind ≠ .ident := by rw [hl]; decide
      have hi := hv.names r hr b
      rw [e, names_skip hli, valued_skip hli]
      exact ⟨hi.2.1, Or.inl hl, hi.2.2⟩
    · have e : l :: (vs ++ [r]) ++ tl = l :: (vs ++ r :: tl) := by simp
      unfold parseVal
      rw [e, cur_cons, hl]
      simp only
      rw [adv_cons l (by simp), parseRefs_skipNl, hrs r tl fuel hr (by simp at hf; omega)]
      simp only [bind, Except.bind, cur_cons, hr, if_true]
      rw [adv_cons r htl]
  | one t ht =>
    rcases ht with ht | ht | ⟨ht, hn⟩
    · have hti : t.kind ≠ .ident := by rw [ht]; decide
      refine ⟨some (.str t.value), nofun, fun w _ => Or.inl ⟨names_skip hti, Or.inr (Or.inl ht), valued_skip hti⟩, fun fuel tl htl hf => ?_⟩
      unfold parseVal
      rw [List.singleton_append, cur_cons, ht]
      simp only
      rw [adv_cons t htl, curVal_cons]
    · refine ⟨some (identVal t.value), nofun, fun w _ => ?_, fun fuel tl htl hf => ?_⟩
      · rw [List.singleton_append]
        cases hnm : isName t b with
        | false =>
          left
          refine ⟨?_, Or.inr (Or.inr (Or.inr ⟨ht, hnm⟩)), ?_⟩
          · rw [Parser.names, hnm]; rfl
          · rw [Valued, hnm]; simp
        | true =>
          right
          refine ⟨t.value, ?_, ?_⟩
          · rw [Parser.names, hnm]; rfl
          · simp [HasValue, ht, hnm]
      · unfold parseVal
        rw [List.singleton_append, cur_cons, ht]
        simp only
        rw [adv_cons t htl, curVal_cons]
    · have hti : t.kind ≠ .ident := by rw [ht]; decide
      refine ⟨some (.num t.value), nofun, fun w _ => Or.inl ⟨names_skip hti, Or.inr (Or.inr (Or.inl ht)), valued_skip hti⟩, fun fuel tl htl hf => ?_⟩
      unfold parseVal
      rw [List.singleton_append, cur_cons, ht]
      simp only
      rw [adv_cons t htl, curVal_cons, if_pos hn]
  | other t h1 h2 h3 h4 =>
    refine ⟨none, fun _ => ⟨names_skip h4, ?_⟩, nofun, fun fuel tl htl hf => parseVal_other env fuel t tl htl h1 h2 h3 h4⟩
    simp [HasValue, h1, h2, h3, h4]

/-- Complete fields are read one by one; the names that are read are all that are written if and only if each has a value. -/
theorem Block.readNames {env : Env} {b : List Token} (h : Block env b) : ∃ reads, reads.Sublist (names b) ∧ (reads = names b ↔ Valued b) ∧
    ∀ (d : Dict Str OutVal), ∃ d', (∀ k, k ∈ d'.keys ↔ k ∈ d.keys ∨ k ∈ reads) ∧ ∀ (rest : List Token) (fuel : Nat), rest ≠ [] → cur rest ≠ .newline →
    cur rest ≠ .comma → b.length < fuel →
    (∃ fuel', fuel ≤ fuel' + b.length ∧ parseFields env fuel d (b ++ rest) = parseFields env fuel' d' rest) ∧
    (∃ fuel', fuel ≤ fuel' + b.length ∧ parseFields env fuel d (sepOut (b ++ rest)) = parseFields env fuel' d' rest) := by
  induction h with
  | nil =>
    refine ⟨[], List.Sublist.refl _, ⟨fun _ => trivial, fun _ => rfl⟩, fun d => ⟨d, fun k => (by simp), fun rest fuel hne h1 h2 hf => ?_⟩⟩
    cases rest with
    | nil => exact absurd rfl hne
    | cons t r =>
      refine ⟨⟨fuel, by omega, rfl⟩, ⟨fuel, by omega, ?_⟩⟩
      rw [List.nil_append, sepOut_other t r h1 h2]
  | skip t b h1 h2 h3 hb ih =>
    obtain ⟨reads, hsub, hval, ih⟩ := ih
    refine ⟨reads, by rw [names_skip h1]; exact hsub, by rw [names_skip h1, valued_skip h1]; exact hval, fun d => ?_⟩
    obtain ⟨d', hk, ih⟩ := ih d
    refine ⟨d', hk, fun rest fuel hne hr1 hr2 hf => ?_⟩
    have hne' : b ++ rest ≠ [] := by simp [hne]
    by_cases hnl : t.kind = .newline
    · obtain ⟨⟨k1, e1, p1⟩, ⟨k2, e2, p2⟩⟩ := ih rest fuel hne hr1 hr2 (by simp at hf; omega)
      refine ⟨⟨k1, by simp; omega, ?_⟩, ⟨k2, by simp; omega, ?_⟩⟩
      · rw [List.cons_append, ← parseFields_skipNl, skipNl_newline t _ hnl hne', parseFields_skipNl, p1]
      · rw [List.cons_append, sepOut_newline t _ hnl hne', p2]
    · cases fuel with
      | zero => simp at hf
      | succ fuel =>
        obtain ⟨⟨k1, e1, p1⟩, _⟩ := ih rest fuel hne hr1 hr2 (by simp at hf; omega)
        have p : parseFields env (fuel + 1) d (t :: b ++ rest) = parseFields env k1 d' rest := by
          rw [List.cons_append, parseFields_junk env fuel d t _ hne' hnl h2 h3 h1, p1]
        refine ⟨⟨k1, by simp; omega, p⟩, ?_⟩
        by_cases hc : t.kind = .comma
        · obtain ⟨⟨k2, e2, p2⟩, _⟩ := ih rest (fuel + 1) hne hr1 hr2 (by simp at hf; omega)
          exact ⟨k2, by simp; omega, by rw [List.cons_append, sepOut_comma1 t _ hc hne', p2]⟩
        · exact ⟨k1, by simp; omega, by rw [List.cons_append, sepOut_other t _ hnl hc, ← List.cons_append, p]⟩
  | field f n c n' vs b hf hn hc hn' hv hb ih =>
    obtain ⟨reads, hsub, hval, ih⟩ := ih
    obtain ⟨v, hno, hyes, hvr⟩ := hv.readName b
    have hN : names (f :: (n ++ c :: (n' ++ (vs ++ b)))) = f.value :: names (vs ++ b) := names_field hf hn hc hn'
    have hV : Valued (f :: (n ++ c :: (n' ++ (vs ++ b)))) ↔ HasValue (vs ++ b) ∧ Valued (vs ++ b) := by
      obtain ⟨t, r, evs, ht⟩ := hv.first
      rw [evs]
      exact valued_field hf hn hc hn' ht
    rw [hN, hV]
    refine ⟨readName f.value v ++ reads, ?_, ?_, fun d => ?_⟩
    · cases v with
      | none => rw [(hno rfl).1]; exact .cons _ hsub
      | some v =>
        refine List.Sublist.cons_cons _ (hsub.trans ?_)
        rcases hyes v rfl with ⟨e, _⟩ | ⟨w, e, _⟩
        · rw [e]; exact List.Sublist.refl _
        · rw [e]; exact List.sublist_cons_self ..
    · cases v with
      | none =>
        have hl := hsub.length_le
        refine ⟨fun e => ?_, fun hx => absurd hx.1 (hno rfl).2⟩
        have := congrArg List.length e
        rw [(hno rfl).1] at this
        simp [readName] at this
        omega
      | some v =>
        rcases hyes v rfl with ⟨e, hh, hvv⟩ | ⟨w, e, hh⟩
        · rw [e, hvv, ← hval]
          simp [readName, hh]
        · have hl := hsub.length_le
          refine ⟨fun e' => ?_, fun hx => absurd hx.1 hh⟩
          have := congrArg List.length e'
          rw [e] at this
          simp [readName] at this
          omega
    obtain ⟨d', hk, ih⟩ := ih (setOpt d f.value v)
    refine ⟨d', ?_, fun rest fuel hne hr1 hr2 hl => ?_⟩
    · intro k
      rw [hk]
      cases v with
      | none => simp [setOpt, readName]
      | some v => simp only [setOpt, readName, Dict.mem_keys_set, List.mem_append, List.mem_singleton]; grind
    obtain ⟨t, r, evs, ht⟩ := hv.first
    have hne' : b ++ rest ≠ [] := by simp [hne]
    have ea : f :: (n ++ c :: (n' ++ (vs ++ b))) ++ rest = f :: (n ++ c :: (n' ++ t :: (r ++ (b ++ rest)))) := by rw [evs]; simp
    have eb : vs ++ (b ++ rest) = t :: (r ++ (b ++ rest)) := by rw [evs]; simp
    cases fuel with
    | zero => simp at hl
    | succ fuel =>
      simp only [List.length_cons, List.length_append] at hl
      obtain ⟨_, ⟨k2, e2, p2⟩⟩ := ih rest fuel hne hr1 hr2 (by omega)
      have p : parseFields env (fuel + 1) d (f :: (n ++ c :: (n' ++ (vs ++ b))) ++ rest) = parseFields env k2 d' rest := by
        rw [ea, parseFields_val env fuel d f n c n' t _ hf hn hc hn' ht, ← eb, hvr fuel _ hne' (by omega)]
        exact p2
      refine ⟨⟨k2, by simp; omega, p⟩, ⟨k2, by simp; omega, ?_⟩⟩
      rw [List.cons_append, sepOut_other f _ (by rw [hf]; decide) (by rw [hf]; decide), ← List.cons_append, p]

theorem names_append (a : List Token) {t : Token} (r : List Token) (h1 : t.kind ≠ .newline) (h2 : t.kind ≠ .colon) : names (a ++ t :: r) = names a ++ names (t :: r) := by
  have hp : ∀ a : List Token, colonNext (past (a ++ t :: r)) = colonNext (past a) := by
    intro a
    induction a with
    | nil => rw [List.nil_append, past_cons_of_ne r h1]; simp [colonNext, past, h2]
    | cons u a ih =>
      by_cases hu : u.kind = .newline
      · rw [List.cons_append, past, if_pos hu, past, if_pos hu]; exact ih
      · rw [List.cons_append, past_cons_of_ne _ hu, past_cons_of_ne _ hu]; rfl
  induction a with
  | nil => rfl
  | cons u a ih =>
    have hi : isName u (a ++ t :: r) = isName u a := by rw [isName, isName, hp]
    rw [List.cons_append, names, names, hi, ih]
    split <;> rfl

theorem Valued.right {a b : List Token} (h : Valued (a ++ b)) : Valued b := by
  induction a with
  | nil => exact h
  | cons t a ih => exact ih h.2

theorem not_valued_dangling {env : Env} {b : List Token} (h : Dangling env b) : ¬ Valued b := by
  obtain ⟨b₁, f, n, c, n', e, hb, hf, hn, hc, hn'⟩ := h
  intro hv
  rw [e] at hv
  have h1 := hv.right.1 (isName_field hf hn hc)
  rw [past_append hn, past_cons_of_ne _ (by rw [hc]; decide), List.tail_cons] at h1
  have := past_append hn' []
  rw [List.append_nil] at this
  rw [this] at h1
  exact h1

/-- **C291**, where it holds: in a block in which each `name:` is followed by a value, the fields of the result are exactly those that are written (whatever follows the block). -/
theorem C291_valued_partial (env : Env) (b : List Token) (hb : Inner b) (o x : Token) (ho : o.kind = .outOpen) (hx : x.kind = .outClose) (tl : List Token)
    (d : Dict Str OutVal) (r : List Token) (h : parseOut env (o :: (b ++ x :: tl)) = .ok (d, r)) (hv : Valued b) (k : Str) : k ∈ d.keys ↔ k ∈ names b := by
  have h' := parseOut_eq env o ho (b ++ x :: tl) (by simp)
  rw [h] at h'
  rcases block_or_error env x hx b.length b (Nat.le_refl _) hb with hbl | hd | ⟨e, he⟩
  · obtain ⟨reads, -, hval, hread⟩ := hbl.readNames
    obtain ⟨d', hk, hd'⟩ := hread []
    obtain ⟨⟨m, hm, p⟩, _⟩ := hd' (x :: tl) ((b ++ x :: tl).length + 2) (by simp) (by rw [cur_cons, hx]; decide) (by rw [cur_cons, hx]; decide) (by simp; omega)
    simp only [List.length_append, List.length_cons] at hm
    rw [p] at h'
    cases m with
    | zero => omega
    | succ m =>
      rw [parseFields_stop env m d' x tl (Or.inl hx)] at h'
      cases h'
      rw [hk, hval.2 hv]
      simp [Dict.keys]
  · exact absurd hv (not_valued_dangling hd)
  · rw [(he [] _ tl (by simp; omega)).1] at h'
    cases h'

theorem reads_all {l m : List Str} (hs : l.Sublist m) (hm : m.Nodup) (h : ∀ n ∈ m, n ∈ l) : l = m :=
  hs.eq_of_length_le (by
    have := (List.subset_def.2 (fun {a} ha => h a ha) : m ⊆ l)
    exact hm.length_le_of_subset this)

/-- **C291**, exactly: of a block (with distinct names) at the end of the text, all fields that are written arrive if and only if each `name:` is followed by a value; no field
arrives that is not written. -/
theorem C291_exact_partial (env : Env) (b : List Token) (hb : Inner b) (o x e : Token) (ho : o.kind = .outOpen) (hx : x.kind = .outClose) (he : e.kind = .eof)
    (d : Dict Str OutVal) (r : List Token) (h : parseOut env (o :: (b ++ [x, e])) = .ok (d, r)) :
    (∀ k ∈ d.keys, k ∈ names b) ∧ ((names b).Nodup → ((∀ n ∈ names b, n ∈ d.keys) ↔ Valued b)) := by
  have h' := parseOut_eq env o ho (b ++ [x, e]) (by simp)
  rw [h] at h'
  rcases block_or_error env x hx b.length b (Nat.le_refl _) hb with hbl | hd | ⟨er, her⟩
  · obtain ⟨reads, hsub, hval, hread⟩ := hbl.readNames
    obtain ⟨d', hk, hd'⟩ := hread []
    obtain ⟨⟨m, hm, p⟩, _⟩ := hd' [x, e] ((b ++ [x, e]).length + 2) (by simp) (by rw [cur_cons, hx]; decide) (by rw [cur_cons, hx]; decide) (by simp; omega)
    simp only [List.length_append, List.length_cons] at hm
    rw [p] at h'
    cases m with
    | zero => omega
    | succ m =>
      rw [parseFields_stop env m d' x [e] (Or.inl hx)] at h'
      cases h'
      have hk' : ∀ k, k ∈ d.keys ↔ k ∈ reads := by intro k; rw [hk]; simp [Dict.keys]
      refine ⟨fun k hkd => hsub.mem ((hk' k).1 hkd), fun hnd => ?_⟩
      rw [← hval]
      exact ⟨fun ha => reads_all hsub hnd (fun n hn => (hk' n).1 (ha n hn)), fun e n hn => (hk' n).2 (e ▸ hn)⟩
  · have hnv := not_valued_dangling hd
    obtain ⟨b₁, f, n, c, n', eb, hb1, hf, hn, hc, hn'⟩ := hd
    obtain ⟨reads, hsub, hval, hread⟩ := hb1.readNames
    obtain ⟨d', hk, hd'⟩ := hread []
    have ea : b ++ [x, e] = b₁ ++ f :: (n ++ c :: (n' ++ [x, e])) := by rw [eb]; simp
    have hlb : b.length = b₁.length + (n.length + (n'.length + 1) + 1) := by rw [eb]; simp
    obtain ⟨⟨m, hm, p⟩, _⟩ := hd' (f :: (n ++ c :: (n' ++ [x, e]))) ((b ++ [x, e]).length + 2) (by simp) (by rw [cur_cons, hf]; decide) (by rw [cur_cons, hf]; decide)
      (by simp; omega)
    simp only [List.length_append, List.length_cons] at hm
    have hnames : names b = names b₁ ++ [f.value] := by
      rw [eb, names_append b₁ _ (by rw [hf]; decide) (by rw [hf]; decide)]
      have := names_field (r := []) hf hn hc hn'
      rw [List.append_nil] at this
      rw [this]; rfl
    cases m with
    | zero => omega
    | succ m =>
      cases m with
      | zero => omega
      | succ m =>
        rw [ea] at h'
        rw [← ea, show (b ++ [x, e]).length + 2 = (b ++ [x, e]).length + 2 from rfl] at h'
        rw [ea] at p
        rw [ea, p, parseFields_val env (m + 1) d' f n c n' x [e] hf hn hc hn' (by rw [hx]; decide),
          parseVal_other env (m + 1) x [e] (by simp) (by rw [hx]; decide) (by rw [hx]; decide) (by rw [hx]; decide) (by rw [hx]; decide)] at h'
        have hs : sepOut [e] = [e] := sepOut_other e [] (by rw [he]; decide) (by rw [he]; decide)
        have h'' : (Except.ok d : Except PErr (Dict Str OutVal)) = (parseFields env (m + 1) (setOpt d' f.value none) (sepOut [e])).map Prod.fst := h'
        rw [hs, parseFields_stop env m _ e [] (Or.inr he)] at h''
        cases h''
        have hk' : ∀ k, k ∈ Dict.keys (setOpt d' f.value none) ↔ k ∈ reads := by intro k; show k ∈ d'.keys ↔ _; rw [hk]; simp [Dict.keys]
        refine ⟨fun k hkd => ?_, fun hnd => ⟨fun ha => ?_, fun hv => absurd hv hnv⟩⟩
        · rw [hnames]; exact List.mem_append_left _ (hsub.mem ((hk' k).1 hkd))
        · exfalso
          rw [hnames, List.nodup_append] at hnd
          have h1 := (hk' f.value).1 (ha f.value (by rw [hnames]; simp))
          exact hnd.2.2 _ (hsub.mem h1) _ (List.mem_singleton.2 rfl) rfl
  · rw [(her [] _ [e] (by simp; omega)).1] at h'
    cases h'

/-- **C291 fails**: a field without a value is dropped silently - and if the next field follows, its name is taken as the value and its own value is dropped. -/
theorem C291_dropped_violation :
    parseText asciiClass asciiEnv "OUT{a: , b: 1}".toList = .ok ⟨[], [], some [(['b'], .num ['1'])]⟩ ∧
    parseText asciiClass asciiEnv "OUT{a:\n b: 1, c: 2}".toList = .ok ⟨[], [], some [(['a'], .refs [['b']]), (['c'], .num ['2'])]⟩ := by decide +kernel

/-- Non-vacuity: a block with all kinds of values meets the condition, and the two above do not. -/
def demoBlock : List Token :=
  [⟨.ident, ['a'], 1, 1⟩, ⟨.colon, [':'], 1, 1⟩, ⟨.newline, ['\n'], 1, 1⟩, ⟨.lbracket, ['['], 1, 1⟩, ⟨.ident, ['x'], 1, 1⟩, ⟨.rbracket, [']'], 1, 1⟩, ⟨.comma, [','], 1, 1⟩,
    ⟨.ident, ['b'], 1, 1⟩, ⟨.colon, [':'], 1, 1⟩, ⟨.ident, ['y'], 1, 1⟩]

example : names demoBlock = [['a'], ['b']] ∧ Valued demoBlock ∧ Inner demoBlock := by
  refine ⟨by decide, by simp [demoBlock, Valued, isName, past, colonNext, HasValue], ?_⟩
  intro t ht
  simp only [demoBlock, List.mem_cons, List.not_mem_nil, or_false] at ht
  rcases ht with rfl | rfl | rfl | rfl | rfl | rfl | rfl | rfl | rfl | rfl <;> decide

example : parseOut asciiEnv (⟨.outOpen, [], 1, 1⟩ :: (demoBlock ++ [⟨.outClose, [], 1, 1⟩, ⟨.eof, [], 1, 1⟩])) =
    .ok ([(['a'], .refs [['x']]), (['b'], .refs [['y']])], [⟨.eof, [], 1, 1⟩]) := by decide

end Verif.Parser
