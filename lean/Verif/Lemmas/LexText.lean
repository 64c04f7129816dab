import Verif.Props.Lexer

/-!
# Lexing of concatenated texts

`K b t` are the kinds and values of the tokens of the text `t`, read with `in_out_block = b`: positions are dropped.
-/

set_option linter.unusedSectionVars false
set_option linter.unusedSimpArgs false
set_option linter.unusedVariables false

namespace Verif.Lexer

/-- Kind and value of a token. -/
def kv (t : Token) : Kind × List Char := (t.kind, t.value)

def K (cc : CharClass) (b : Bool) (t : List Char) : List (Kind × List Char) := ((go cc t.length b (1, 1) t).map (List.map kv)).getD []

theorem go_kv {cc : CharClass} (ok : cc.Ok) (f : Nat) : ∀ (f' : Nat) (b : Bool) (p p' : Nat × Nat) (t : List Char), t.length ≤ f → t.length ≤ f' →
    (go cc f b p t).map (List.map kv) = (go cc f' b p' t).map (List.map kv) := by
  induction f with
  | zero =>
    intro f' b p p' t h h'
    have : t = [] := List.length_eq_zero_iff.1 (by omega)
    subst this
    cases f' <;> rfl
  | succ f ih =>
    intro f' b p p' t h h'
    cases t with
    | nil => cases f' <;> rfl
    | cons c r =>
      cases f' with
      | zero => simp at h'
      | succ f' =>
        obtain ⟨h1, h2, _⟩ := lexOne_ok ok b c r
        have := ih f' (lexOne cc b c r).inOut (move p ((c :: r).take (lexOne cc b c r).n)) (move p' ((c :: r).take (lexOne cc b c r).n)) ((c :: r).drop (lexOne cc b c r).n)
          (by rw [List.length_drop]; omega) (by rw [List.length_drop]; omega)
        simp only [go, Option.map_map]
        have hp : ∀ q, (List.map kv ∘ push q (lexOne cc b c r).tok) = (fun l => (lexOne cc b c r).tok.toList ++ l) ∘ List.map kv := by
          intro q
          funext l
          cases (lexOne cc b c r).tok with
          | none => rfl
          | some x => rfl
        rw [hp, hp, ← Option.map_map, ← Option.map_map, this]

theorem K_nil (cc : CharClass) (b : Bool) : K cc b [] = [(.eof, [])] := rfl

theorem K_cons {cc : CharClass} (ok : cc.Ok) (b : Bool) (c : Char) (r : List Char) :
    K cc b (c :: r) = (lexOne cc b c r).tok.toList ++ K cc (lexOne cc b c r).inOut ((c :: r).drop (lexOne cc b c r).n) := by
  obtain ⟨h1, h2, _⟩ := lexOne_ok ok b c r
  have hlen : ((c :: r).drop (lexOne cc b c r).n).length ≤ r.length := by rw [List.length_drop]; simp only [List.length_cons]; omega
  obtain ⟨ts, hts⟩ := go_total ok r.length (lexOne cc b c r).inOut (move (1, 1) ((c :: r).take (lexOne cc b c r).n)) ((c :: r).drop (lexOne cc b c r).n) hlen
  have hk := go_kv ok r.length ((c :: r).drop (lexOne cc b c r).n).length (lexOne cc b c r).inOut (move (1, 1) ((c :: r).take (lexOne cc b c r).n)) (1, 1)
    ((c :: r).drop (lexOne cc b c r).n) hlen (Nat.le_refl _)
  unfold K
  simp only [List.length_cons]
  rw [go, hts] at *
  rw [← hk]
  simp only [Option.map_some, Option.getD_some]
  cases (lexOne cc b c r).tok with
  | none => rfl
  | some x => rfl

theorem K_tokenize {cc : CharClass} (ok : cc.Ok) {t : List Char} {ts : List Token} (h : tokenize cc t = some ts) : ts.map kv = K cc false t := by
  unfold tokenize at h
  unfold K
  rw [h]; rfl

/-! ### Single tokens -/

theorem takeWhile_stop {α : Type} {p : α → Bool} {u rest : List α} (hu : ∀ c ∈ u, p c = true) (hr : ∀ c r, rest = c :: r → p c = false) : (u ++ rest).takeWhile p = u := by
  induction u with
  | nil =>
    cases rest with
    | nil => rfl
    | cons c r => rw [List.nil_append, List.takeWhile_cons_of_neg (by rw [hr c r rfl]; simp)]
  | cons c u ih =>
    rw [List.cons_append, List.takeWhile_cons_of_pos (hu c List.mem_cons_self), ih (fun d hd => hu d (List.mem_cons_of_mem _ hd))]

theorem K_ws {cc : CharClass} (ok : cc.Ok) (b : Bool) (c : Char) (h : isWs c = true) (r : List Char) : K cc b (c :: r) = K cc b r := by
  have h1 : ∀ c r, isWs c = true → K cc b (c :: r) = K cc b ((c :: r).dropWhile isWs) := by
    intro c r h
    rw [K_cons ok]
    have e : lexOne cc b c r = ⟨none, ((c :: r).takeWhile isWs).length, b⟩ := by unfold lexOne; rw [if_pos h]
    rw [e]
    simp only [Option.toList_none, List.nil_append]
    congr 1
    have := List.takeWhile_append_dropWhile (p := isWs) (l := c :: r)
    conv => lhs; arg 2; rw [← this]
    rw [List.drop_left']
    rfl
  rw [h1 c r h, List.dropWhile_cons_of_pos h]
  cases r with
  | nil => rfl
  | cons d r =>
    cases hd : isWs d with
    | true => rw [h1 d r hd]
    | false => rw [List.dropWhile_cons_of_neg (by rw [hd]; simp)]

theorem K_newline {cc : CharClass} (ok : cc.Ok) (b : Bool) (r : List Char) : K cc b ('\n' :: r) = (.newline, ['\n']) :: K cc b r := by
  rw [K_cons ok]
  have e : lexOne cc b '\n' r = ⟨some (.newline, ['\n']), 1, b⟩ := by
    unfold lexOne; rw [if_neg (by decide), if_pos rfl]
  rw [e]; rfl

/-- Identifiers: a letter or underscore, then letters, digits, underscores. -/
def IsIdent (cc : CharClass) (x : List Char) : Prop := ∃ c r, x = c :: r ∧ (cc.isAlpha c = true ∨ c = '_') ∧ ∀ d ∈ r, isIdChar cc d = true

theorem IsIdent.chars {cc : CharClass} (ok : cc.Ok) {x : List Char} (h : IsIdent cc x) : ∀ d ∈ x, isIdChar cc d = true := by
  obtain ⟨c, r, rfl, hc, hr⟩ := h
  intro d hd
  rcases List.mem_cons.1 hd with rfl | hd
  · rcases hc with hc | hc
    · simp [isIdChar, ok.alpha_alnum d hc]
    · simp [isIdChar, hc]
  · exact hr d hd

theorem IsIdent.ne_nil {cc : CharClass} {x : List Char} (h : IsIdent cc x) : x ≠ [] := by
  obtain ⟨c, r, rfl, _⟩ := h; simp

theorem not_idChar {cc : CharClass} (ok : cc.Ok) {c : Char}
    (h : c ∈ ['"', '\'', '\\', '\n', '\t', '\r', ' ', '.', ',', ':', '[', ']', '(', ')', '{', '}', '<', '>', '/', '-']) : isIdChar cc c = false := by
  have h1 := ok.punct c (by simp only [List.mem_cons, List.not_mem_nil, or_false] at h ⊢; grind)
  have h2 : (c == '_') = false := by
    rw [beq_eq_false_iff_ne]
    rintro rfl
    revert h; decide
  simp [isIdChar, h1, h2]

theorem not_digit {cc : CharClass} (ok : cc.Ok) {c : Char}
    (h : c ∈ ['"', '\'', '\\', '\n', '\t', '\r', ' ', '.', ',', ':', '[', ']', '(', ')', '{', '}', '<', '>', '/', '-', '_']) : cc.isDigit c = false := by
  have h1 := ok.punct c h
  cases hd : cc.isDigit c with
  | false => rfl
  | true => rw [ok.digit_alnum c hd] at h1; cases h1

theorem not_alpha {cc : CharClass} (ok : cc.Ok) {c : Char}
    (h : c ∈ ['"', '\'', '\\', '\n', '\t', '\r', ' ', '.', ',', ':', '[', ']', '(', ')', '{', '}', '<', '>', '/', '-', '_']) : cc.isAlpha c = false := by
  have h1 := ok.punct c h
  cases hd : cc.isAlpha c with
  | false => rfl
  | true => rw [ok.alpha_alnum c hd] at h1; cases h1

theorem idChar_ne {cc : CharClass} (ok : cc.Ok) {c d : Char} (hc : isIdChar cc c = true)
    (h : d ∈ ['"', '\'', '\\', '\n', '\t', '\r', ' ', '.', ',', ':', '[', ']', '(', ')', '{', '}', '<', '>', '/', '-']) : c ≠ d := by
  rintro rfl
  rw [not_idChar ok h] at hc; cases hc

/-- What may follow an identifier or a number: no identifier or number character, no `{`. -/
def Stop (cc : CharClass) (rest : List Char) : Prop := ∀ c r, rest = c :: r → isIdChar cc c = false ∧ isNumChar cc c = false ∧ c ≠ '{'

theorem Stop.nil (cc : CharClass) : Stop cc [] := by intro c r h; cases h

theorem Stop.cons {cc : CharClass} (ok : cc.Ok) {c : Char} (r : List Char) (h : c ∈ ['\n', '\t', '\r', ' ', ',', ':', ']', '}', '>']) : Stop cc (c :: r) := by
  intro d r' e
  cases e
  have hi : isIdChar cc c = false := not_idChar ok (by simp only [List.mem_cons, List.not_mem_nil, or_false] at h ⊢; grind)
  have hd : cc.isDigit c = false := not_digit ok (by simp only [List.mem_cons, List.not_mem_nil, or_false] at h ⊢; grind)
  refine ⟨hi, ?_, ?_⟩
  · have : (c == '.') = false := by
      rw [beq_eq_false_iff_ne]; rintro rfl; revert h; decide
    simp [isNumChar, hd, this]
  · rintro rfl; revert h; decide

theorem prefix_split {k u rest : List Char} (h : k <+: u ++ rest) : k <+: u ∨ ∃ s, s ≠ [] ∧ k = u ++ s ∧ s <+: rest := by
  obtain ⟨t, ht⟩ := h
  rcases List.append_eq_append_iff.1 ht with ⟨a, h1, h2⟩ | ⟨a, h1, h2⟩
  · exact Or.inl ⟨a, h1.symm⟩
  · by_cases ha : a = []
    · subst ha; rw [List.append_nil] at h1; exact Or.inl (by rw [h1]; exact List.prefix_rfl)
    · exact Or.inr ⟨a, ha, h1, ⟨t, h2.symm⟩⟩

/-- What is used of the letters of `OUT`: they are letters in every Unicode version. -/
structure Letters (cc : CharClass) : Prop where
  digitO : cc.isDigit 'O' = false
  alnumU : cc.isAlnum 'U' = true
  alnumT : cc.isAlnum 'T' = true

theorem asciiClass_letters : Letters asciiClass := ⟨by decide, by decide, by decide⟩

theorem not_out {cc : CharClass} (ok : cc.Ok) (hl : Letters cc) {x : List Char} (hne : x ≠ []) (hall : ∀ d ∈ x, isIdChar cc d = true) (rest : List Char)
    (hr : ∀ c r, rest = c :: r → isIdChar cc c = false ∧ c ≠ '{') : startsWith "OUT{".toList (x ++ rest) = false := by
  have hU : isIdChar cc 'U' = true := by simp [isIdChar, hl.alnumU]
  have hT : isIdChar cc 'T' = true := by simp [isIdChar, hl.alnumT]
  rw [Bool.eq_false_iff]
  intro h
  rw [isPrefixOf_iff] at h
  rcases prefix_split h with h | ⟨s, hs, h1, h2⟩
  · have : '{' ∈ x := h.mem (by decide)
    have := hall _ this
    rw [not_idChar ok (by decide)] at this; cases this
  · cases s with
    | nil => exact hs rfl
    | cons d s =>
      obtain ⟨t, ht⟩ := h2
      have hd := hr d (s ++ t) (by rw [← ht]; rfl)
      match x, hne, h1 with
      | [_], _, h1 => simp at h1; rw [← h1.2.1, hU] at hd; cases hd.1
      | [_, _], _, h1 => simp at h1; rw [← h1.2.2.1, hT] at hd; cases hd.1
      | [_, _, _], _, h1 => simp at h1; exact hd.2 h1.2.2.2.1.symm
      | _ :: _ :: _ :: _ :: _, _, h1 => simp at h1

theorem K_ident {cc : CharClass} (ok : cc.Ok) (hl : Letters cc) (b : Bool) {x : List Char} (hx : IsIdent cc x) (rest : List Char)
    (hr : ∀ c r, rest = c :: r → isIdChar cc c = false ∧ c ≠ '{') : K cc b (x ++ rest) = (.ident, x) :: K cc b rest := by
  have hall := hx.chars ok
  have hout := not_out ok hl hx.ne_nil hall rest hr
  obtain ⟨c, r, rfl, hc, _⟩ := hx
  have hcid := hall c List.mem_cons_self
  rw [List.cons_append] at hout ⊢
  rw [K_cons ok]
  have ht : (c :: (r ++ rest)).takeWhile (isIdChar cc) = c :: r := by
    rw [← List.cons_append]
    exact takeWhile_stop hall (fun d r' e => (hr d r' e).1)
  have e : lexOne cc b c (r ++ rest) = ⟨some (.ident, c :: r), (c :: r).length, b⟩ := by
    unfold lexOne
    have e1 : isWs c = false := by
      have h1 := idChar_ne ok hcid (d := ' ') (by decide)
      have h2 := idChar_ne ok hcid (d := '\t') (by decide)
      have h3 := idChar_ne ok hcid (d := '\r') (by decide)
      simp [isWs, h1, h2, h3]
    rw [e1, if_neg (by simp), if_neg (idChar_ne ok hcid (by decide)), if_neg (idChar_ne ok hcid (by decide)), hout, if_neg (by simp),
      if_pos (by rcases hc with h | h <;> simp [h]), ht]
  rw [e]
  simp only [Option.toList_some, List.singleton_append]
  congr 2
  rw [← List.cons_append, List.drop_left']
  rfl

/-- Number spellings: an optional minus, a digit, then digits and dots. -/
def IsNum (cc : CharClass) (x : List Char) : Prop := ∃ c r, (x = c :: r ∨ x = '-' :: c :: r) ∧ cc.isDigit c = true ∧ cc.isAlpha c = false ∧ ∀ d ∈ r, isNumChar cc d = true

theorem startsWith_head {p t : List Char} {a c : Char} (h : a ≠ c) : startsWith (a :: p) (c :: t) = false := by
  rw [Bool.eq_false_iff]
  intro hs
  rw [isPrefixOf_iff, List.cons_prefix_cons] at hs
  exact h hs.1

theorem K_num {cc : CharClass} (ok : cc.Ok) (hl : Letters cc) {x : List Char} (hx : IsNum cc x) (rest : List Char)
    (hr : ∀ c r, rest = c :: r → isNumChar cc c = false) : K cc true (x ++ rest) = (.num, x) :: K cc true rest := by
  obtain ⟨c, r, hx, hd, ha, hall⟩ := hx
  have hcn : isNumChar cc c = true := by simp [isNumChar, hd]
  have hall' : ∀ d ∈ c :: r, isNumChar cc d = true := by
    intro d h
    rcases List.mem_cons.1 h with rfl | h
    · exact hcn
    · exact hall d h
  have ht : (c :: (r ++ rest)).takeWhile (isNumChar cc) = c :: r := by
    rw [← List.cons_append]
    exact takeWhile_stop hall' hr
  have hne : ∀ d ∈ ['"', '\'', '\\', '\n', '\t', '\r', ' ', '.', ',', ':', '[', ']', '(', ')', '{', '}', '<', '>', '/', '-', '_'], c ≠ d := by
    rintro d h rfl
    rw [not_digit ok h] at hd; cases hd
  have hO : c ≠ 'O' := by rintro rfl; rw [hl.digitO] at hd; cases hd
  rcases hx with rfl | rfl
  · rw [List.cons_append, K_cons ok]
    have e : lexOne cc true c (r ++ rest) = ⟨some (.num, c :: r), (c :: r).length, true⟩ := by
      unfold lexOne
      have e1 : isWs c = false := by simp [isWs, hne ' ' (by decide), hne '\t' (by decide), hne '\r' (by decide)]
      rw [e1, if_neg (by simp), if_neg (hne _ (by decide)), if_neg (hne _ (by decide))]
      rw [show "OUT{".toList = 'O' :: "UT{".toList from rfl, startsWith_head (Ne.symm hO), if_neg (by simp), ha, if_neg (by simp [hne '_' (by decide)]),
        if_neg (by intro h; exact hne '-' (by decide) h.1), if_pos hd, ht]
    rw [e]
    simp only [Option.toList_some, List.singleton_append]
    congr 2
    rw [← List.cons_append, List.drop_left']
    rfl
  · rw [List.cons_append, List.cons_append, K_cons ok]
    have e : lexOne cc true '-' (c :: (r ++ rest)) = ⟨some (.num, '-' :: c :: r), (c :: r).length + 1, true⟩ := by
      unfold lexOne
      rw [if_neg (by decide), if_neg (by decide), if_neg (by decide), show "OUT{".toList = 'O' :: "UT{".toList from rfl, startsWith_head (by decide), if_neg (by simp),
        not_alpha ok (by decide), if_neg (by decide), if_pos ⟨rfl, rfl, by simp [digitNext, hd]⟩, ht]
    rw [e]
    simp only [Option.toList_some, List.singleton_append]
    congr 2
    have : '-' :: c :: (r ++ rest) = ('-' :: c :: r) ++ rest := rfl
    rw [this, List.drop_left']
    rfl

theorem K_str {cc : CharClass} (ok : cc.Ok) (q : Char) (hq : q = '"' ∨ q = '\'') (s rest : List Char) :
    K cc true (literal q s ++ rest) = (.str, s) :: K cc true rest := by
  have h := C46_roundtrip ok q hq s rest rest.length (1, 1)
  obtain ⟨ts, hts⟩ := go_total ok rest.length true (move (1, 1) (literal q s)) rest (Nat.le_refl _)
  have e1 : K cc true (literal q s ++ rest) = ((go cc (literal q s ++ rest).length true (1, 1) (literal q s ++ rest)).map (List.map kv)).getD [] := rfl
  have hg : (go cc (literal q s ++ rest).length true (1, 1) (literal q s ++ rest)).map (List.map kv) =
      (go cc ((literal q s ++ rest).length + (rest.length + 1)) true (1, 1) (literal q s ++ rest)).map (List.map kv) :=
    go_kv ok _ _ _ _ _ _ (Nat.le_refl _) (by omega)
  have h2 := C46_roundtrip ok q hq s rest ((literal q s ++ rest).length + rest.length) (1, 1)
  have h3 := go_kv ok ((literal q s ++ rest).length + rest.length) rest.length true (move (1, 1) (literal q s)) (1, 1) rest (by omega) (Nat.le_refl _)
  rw [e1, hg, ← Nat.add_assoc, h2]
  unfold K
  rw [← h3, Option.map_map]
  obtain ⟨us, hus⟩ := go_total ok ((literal q s ++ rest).length + rest.length) true (move (1, 1) (literal q s)) rest (by omega)
  rw [hus]
  rfl

theorem K_punct {cc : CharClass} (ok : cc.Ok) (b : Bool) {c : Char} {k : Kind} (hk : punct c = some k) (hc : c ∈ ['.', ',', ':', '[', ']', '}', '>']) (rest : List Char) :
    K cc b (c :: rest) = (k, [c]) :: K cc (if c = '}' then false else b) rest := by
  rw [K_cons ok]
  have ha : cc.isAlpha c = false := not_alpha ok (by simp only [List.mem_cons, List.not_mem_nil, or_false] at hc ⊢; grind)
  have hd : cc.isDigit c = false := not_digit ok (by simp only [List.mem_cons, List.not_mem_nil, or_false] at hc ⊢; grind)
  have hne : ∀ d ∈ [' ', '\t', '\r', '\n', '<', 'O', '_', '-', '"', '\''], c ≠ d := by
    rintro d h rfl
    simp only [List.mem_cons, List.not_mem_nil, or_false] at hc h
    rcases hc with rfl | rfl | rfl | rfl | rfl | rfl | rfl <;> revert h <;> decide
  have e : lexOne cc b c rest = ⟨some (k, [c]), 1, if c = '}' then false else b⟩ := by
    unfold lexOne
    have e1 : isWs c = false := by simp [isWs, hne ' ' (by decide), hne '\t' (by decide), hne '\r' (by decide)]
    rw [e1, if_neg (by simp), if_neg (hne _ (by decide)), if_neg (hne _ (by decide)), show "OUT{".toList = 'O' :: "UT{".toList from rfl,
      startsWith_head (Ne.symm (hne 'O' (by decide))), if_neg (by simp), ha, if_neg (by simp [hne '_' (by decide)]),
      if_neg (by intro h; exact hne '-' (by decide) h.1), hd, if_neg (by simp),
      if_neg (by rintro ⟨h | h, _⟩ <;> first | exact hne '"' (by decide) h | exact hne '\'' (by decide) h), hk]
  rw [e]; rfl

theorem K_out {cc : CharClass} (ok : cc.Ok) (b : Bool) (rest : List Char) : K cc b ("OUT{".toList ++ rest) = (.outOpen, "OUT{".toList) :: K cc true rest := by
  have e0 : "OUT{".toList ++ rest = 'O' :: ("UT{".toList ++ rest) := rfl
  rw [e0, K_cons ok]
  have e : lexOne cc b 'O' ("UT{".toList ++ rest) = ⟨some (.outOpen, "OUT{".toList), 4, true⟩ := by
    unfold lexOne
    rw [if_neg (by decide), if_neg (by decide), if_neg (by decide), if_pos (by rw [isPrefixOf_iff, ← e0]; exact List.prefix_append _ _)]
  rw [e]; rfl

theorem K_tag {cc : CharClass} (ok : cc.Ok) (b : Bool) {v : List Char} {k : Kind}
    (h : (v, k) ∈ [("<lvar".toList, Kind.lvarOpen), ("<lact".toList, .lactOpen), ("</lvar>".toList, .lvarClose), ("</lact>".toList, .lactClose)]) (rest : List Char) :
    K cc b (v ++ rest) = (k, v) :: K cc b rest := by
  simp only [List.mem_cons, List.not_mem_nil, or_false, Prod.mk.injEq] at h
  have key : ∀ r : List Char, lexOne cc b '<' r = lexTag b ('<' :: r) := by
    intro r; unfold lexOne; rw [if_neg (by decide), if_neg (by decide), if_pos rfl]
  rcases h with ⟨rfl, rfl⟩ | ⟨rfl, rfl⟩ | ⟨rfl, rfl⟩ | ⟨rfl, rfl⟩
  · have e0 : "<lvar".toList ++ rest = '<' :: ("lvar".toList ++ rest) := rfl
    have e : lexTag b ('<' :: ("lvar".toList ++ rest)) = ⟨some (.lvarOpen, "<lvar".toList), 5, b⟩ := by
      simp [lexTag, startsWith, List.isPrefixOf]
    rw [e0, K_cons ok, key, e]; rfl
  · have e0 : "<lact".toList ++ rest = '<' :: ("lact".toList ++ rest) := rfl
    have e : lexTag b ('<' :: ("lact".toList ++ rest)) = ⟨some (.lactOpen, "<lact".toList), 5, b⟩ := by
      simp [lexTag, startsWith, List.isPrefixOf]
    rw [e0, K_cons ok, key, e]; rfl
  · have e0 : "</lvar>".toList ++ rest = '<' :: ("/lvar>".toList ++ rest) := rfl
    have e : lexTag b ('<' :: ("/lvar>".toList ++ rest)) = ⟨some (.lvarClose, "</lvar>".toList), 7, b⟩ := by
      simp [lexTag, startsWith, List.isPrefixOf]
    rw [e0, K_cons ok, key, e]; rfl
  · have e0 : "</lact>".toList ++ rest = '<' :: ("/lact>".toList ++ rest) := rfl
    have e : lexTag b ('<' :: ("/lact>".toList ++ rest)) = ⟨some (.lactClose, "</lact>".toList), 7, b⟩ := by
      simp [lexTag, startsWith, List.isPrefixOf]
    rw [e0, K_cons ok, key, e]; rfl

theorem K_ne_nil {cc : CharClass} (ok : cc.Ok) (b : Bool) (t : List Char) : K cc b t ≠ [] := by
  have key : ∀ n, ∀ (b : Bool) (t : List Char), t.length ≤ n → K cc b t ≠ [] := by
    intro n
    induction n with
    | zero =>
      intro b t h
      have : t = [] := List.length_eq_zero_iff.1 (by omega)
      subst this; rw [K_nil]; simp
    | succ n ih =>
      intro b t h
      cases t with
      | nil => rw [K_nil]; simp
      | cons c r =>
        obtain ⟨h1, h2, _⟩ := lexOne_ok ok b c r
        rw [K_cons ok]
        have := ih (lexOne cc b c r).inOut ((c :: r).drop (lexOne cc b c r).n) (by rw [List.length_drop]; omega)
        simp [this]
  exact key _ b t (Nat.le_refl _)

/-! ### Gaps: white space and newlines -/

def IsGap (g : List Char) : Prop := ∀ c ∈ g, c = ' ' ∨ c = '\t' ∨ c = '\r' ∨ c = '\n'

theorem K_gap {cc : CharClass} (ok : cc.Ok) (b : Bool) {g : List Char} (hg : IsGap g) (rest : List Char) :
    ∃ n : List (Kind × List Char), (∀ x ∈ n, x.1 = .newline) ∧ K cc b (g ++ rest) = n ++ K cc b rest := by
  induction g with
  | nil => exact ⟨[], by simp, rfl⟩
  | cons c g ih =>
    obtain ⟨n, h1, h2⟩ := ih (fun d hd => hg d (List.mem_cons_of_mem _ hd))
    rw [List.cons_append]
    rcases hg c List.mem_cons_self with rfl | rfl | rfl | rfl
    · rw [K_ws ok b _ (by decide)]; exact ⟨n, h1, h2⟩
    · rw [K_ws ok b _ (by decide)]; exact ⟨n, h1, h2⟩
    · rw [K_ws ok b _ (by decide)]; exact ⟨n, h1, h2⟩
    · rw [K_newline ok]
      refine ⟨(.newline, ['\n']) :: n, ?_, by rw [h2]; rfl⟩
      intro x hx
      rcases List.mem_cons.1 hx with rfl | hx
      · rfl
      · exact h1 x hx

theorem Stop.gap {cc : CharClass} (ok : cc.Ok) {g rest : List Char} (hg : IsGap g) (hr : Stop cc rest) : Stop cc (g ++ rest) := by
  cases g with
  | nil => exact hr
  | cons c g =>
    apply Stop.cons ok
    rcases hg c List.mem_cons_self with rfl | rfl | rfl | rfl <;> decide

theorem K_spaces {cc : CharClass} (ok : cc.Ok) (b : Bool) {w : List Char} (hw : ∀ c ∈ w, isWs c = true) (rest : List Char) : K cc b (w ++ rest) = K cc b rest := by
  induction w with
  | nil => rfl
  | cons c w ih => rw [List.cons_append, K_ws ok b c (hw c List.mem_cons_self), ih (fun d hd => hw d (List.mem_cons_of_mem _ hd))]

/-! ### Text without keywords -/

/-- The keywords of LNDL texts. -/
def keywords : List (List Char) := ["<lvar".toList, "<lact".toList, "</lvar>".toList, "</lact>".toList, "OUT{".toList]

/-- No keyword occurs in the text. -/
def Plain (u : List Char) : Prop := ∀ k ∈ keywords, ¬ k <:+: u

/-- No keyword starts in `u` when `rest` follows. -/
def Quiet (u rest : List Char) : Prop := ∀ a b, u = a ++ b → b ≠ [] → ∀ k ∈ keywords, ¬ k <+: b ++ rest

/-- What may follow a plain text: nothing, or a character that is not inside a keyword. -/
theorem Plain.quiet {u rest : List Char} (hu : Plain u) (hr : ∀ c r, rest = c :: r → c = '<' ∨ c = 'O') : Quiet u rest := by
  intro a b e hb k hk hp
  rcases prefix_split hp with h | ⟨s, hs, h1, h2⟩
  · refine hu k hk ?_
    rw [e]
    exact h.isInfix.trans (List.suffix_append a b).isInfix
  · cases b with
    | nil => exact hb rfl
    | cons x b =>
      cases s with
      | nil => exact hs rfl
      | cons y s =>
        obtain ⟨t, ht⟩ := h2
        have hy := hr y (s ++ t) (by rw [← ht]; rfl)
        have hmem : y ∈ k.tail := by rw [h1]; simp
        simp only [keywords, List.mem_cons, List.not_mem_nil, or_false] at hk
        rcases hk with rfl | rfl | rfl | rfl | rfl <;> rcases hy with rfl | rfl <;> revert hmem <;> decide

/-- Kinds of the tokens of plain text. -/
def PlainKind (k : Kind) : Prop := k ≠ .lvarOpen ∧ k ≠ .lactOpen ∧ k ≠ .lvarClose ∧ k ≠ .lactClose ∧ k ≠ .outOpen ∧ k ≠ .eof

/-- No token runs from `u` into `rest`. -/
def Bound (cc : CharClass) (u rest : List Char) : Prop :=
  ∀ c r, rest = c :: r → isWs c = false ∧ isNumChar cc c = false ∧ (isIdChar cc c = false ∨ ∀ d, u.getLast? = some d → isIdChar cc d = false)

theorem takeWhile_le {p : Char → Bool} {u rest : List Char} (h : ∀ c r, rest = c :: r → p c = false ∨ ∀ d, u.getLast? = some d → p d = false) (hne : u ≠ []) :
    ((u ++ rest).takeWhile p).length ≤ u.length := by
  rw [List.takeWhile_append]
  split
  · next he =>
    have hall : ∀ x ∈ u, p x = true := by
      have : u.takeWhile p = u := (List.takeWhile_prefix p).eq_of_length he
      intro x hx
      rw [← this] at hx
      exact List.all_eq_true.1 List.all_takeWhile x hx
    cases rest with
    | nil => simp
    | cons c r =>
      rcases h c r rfl with h | h
      · rw [List.takeWhile_cons_of_neg (by rw [h]; simp)]; simp
      · have := h (u.getLast hne) (List.getLast?_eq_some_getLast hne)
        rw [hall _ (List.getLast_mem hne)] at this; cases this
  · exact (List.takeWhile_sublist p).length_le

theorem lexOne_plain {cc : CharClass} (ok : cc.Ok) {c : Char} {v rest : List Char} (hq : ∀ k ∈ keywords, ¬ k <+: (c :: v) ++ rest) (hb : Bound cc (c :: v) rest) :
    (lexOne cc false c (v ++ rest)).n ≤ (c :: v).length ∧ (lexOne cc false c (v ++ rest)).inOut = false ∧
      ∀ x ∈ (lexOne cc false c (v ++ rest)).tok.toList, PlainKind x.1 := by
  have hsw : ∀ k ∈ keywords, startsWith k (c :: (v ++ rest)) = false := by
    intro k hk
    rw [Bool.eq_false_iff]
    intro h
    exact hq k hk (isPrefixOf_iff.1 h)
  unfold lexOne
  split
  · refine ⟨takeWhile_le (u := c :: v) (fun d r e => Or.inl (hb d r e).1) (by simp), rfl, by simp⟩
  · split
    · refine ⟨by simp, rfl, ?_⟩
      intro x hx; simp at hx; subst hx; simp [PlainKind]
    · split
      · unfold lexTag
        rw [hsw _ (by simp [keywords]), hsw _ (by simp [keywords]), hsw _ (by simp [keywords]), hsw _ (by simp [keywords])]
        simp
      · rw [hsw _ (by simp [keywords])]
        simp only [Bool.false_eq_true, if_false, false_and, and_false]
        split
        · refine ⟨takeWhile_le (u := c :: v) (fun d r e => (hb d r e).2.2) (by simp), rfl, ?_⟩
          intro x hx; simp at hx; subst hx; simp [PlainKind]
        · split
          · refine ⟨takeWhile_le (u := c :: v) (fun d r e => Or.inl (hb d r e).2.1) (by simp), rfl, ?_⟩
            intro x hx; simp at hx; subst hx; simp [PlainKind]
          · split
            · next k hk =>
              refine ⟨by simp, by split <;> rfl, ?_⟩
              intro x hx; simp at hx; subst hx
              unfold punct at hk
              repeat' (split at hk; · cases hk; simp [PlainKind])
              cases hk
            · exact ⟨by simp, rfl, by simp⟩

theorem Bound.drop {cc : CharClass} {u rest : List Char} (n : Nat) (h : Bound cc u rest) : Bound cc (u.drop n) rest := by
  intro c r e
  obtain ⟨h1, h2, h3⟩ := h c r e
  refine ⟨h1, h2, ?_⟩
  rcases h3 with h3 | h3
  · exact Or.inl h3
  · refine Or.inr (fun d hd => h3 d ?_)
    rw [← List.take_append_drop n u, List.getLast?_append, hd]; rfl

theorem K_plain {cc : CharClass} (ok : cc.Ok) {u rest : List Char} (hq : Quiet u rest) (hb : Bound cc u rest) :
    ∃ body : List (Kind × List Char), (∀ x ∈ body, PlainKind x.1) ∧ K cc false (u ++ rest) = body ++ K cc false rest := by
  have key : ∀ n, ∀ u : List Char, u.length ≤ n → Quiet u rest → Bound cc u rest →
      ∃ body : List (Kind × List Char), (∀ x ∈ body, PlainKind x.1) ∧ K cc false (u ++ rest) = body ++ K cc false rest := by
    intro n
    induction n with
    | zero =>
      intro u h _ _
      have : u = [] := List.length_eq_zero_iff.1 (by omega)
      subst this; exact ⟨[], by simp, rfl⟩
    | succ n ih =>
      intro u h hq hb
      cases u with
      | nil => exact ⟨[], by simp, rfl⟩
      | cons c v =>
        obtain ⟨h1, _, _⟩ := lexOne_ok ok false c (v ++ rest)
        obtain ⟨h2, h3, h4⟩ := lexOne_plain ok (hq [] (c :: v) rfl (by simp)) hb
        obtain ⟨body, e1, e2⟩ := ih ((c :: v).drop (lexOne cc false c (v ++ rest)).n) (by rw [List.length_drop]; omega)
          (by
            intro a b e hb' k hk
            refine hq ((c :: v).take (lexOne cc false c (v ++ rest)).n ++ a) b ?_ hb' k hk
            rw [List.append_assoc, ← e, List.take_append_drop]) (hb.drop _)
        refine ⟨(lexOne cc false c (v ++ rest)).tok.toList ++ body, ?_, ?_⟩
        · intro x hx
          rcases List.mem_append.1 hx with hx | hx
          · exact h4 x hx
          · exact e1 x hx
        · rw [List.cons_append, K_cons ok, h3, ← List.cons_append, List.drop_append_of_le_length h2, e2, List.append_assoc]
  exact key _ u (Nat.le_refl _) hq hb

end Verif.Lexer
