import Verif.Props.FuzzyJson

/-!
# Property C217: what the repairs of `fuzzy_json` do to a text, token by token
-/

set_option linter.unusedSectionVars false
set_option linter.unusedSimpArgs false
set_option linter.unusedVariables false

namespace Verif.FuzzyJson

variable {α : Type}

/-! ## Specification -/

/-- White space (the specification is in `Verif/Py/Space.lean`). -/
abbrev White (c : Char) : Prop := Py.White c

/-- Tokens of a JSON-like text: brackets (`true`: square), commas, colons, strings in double (`true`) or single quotes, bare words
(numbers, literals, unquoted keys) and white space. -/
inductive Tok where
  | opening (square : Bool)
  | closing (square : Bool)
  | comma
  | colon
  | str (double : Bool) (s : Str)
  | bare (s : Str)
  | ws (s : Str)
  deriving DecidableEq, Repr

/-- The characters of a token. -/
def Tok.text : Tok → Str
  | .opening true => ['[']
  | .opening false => ['{']
  | .closing true => [']']
  | .closing false => ['}']
  | .comma => [',']
  | .colon => [':']
  | .str true s => '"' :: (s ++ ['"'])
  | .str false s => '\'' :: (s ++ ['\''])
  | .bare s => s
  | .ws s => s

/-- The characters of a sequence of tokens. -/
def text (ts : List Tok) : Str := ts.flatMap Tok.text

/-- Contents of strings that are considered: no quotes, no white space other than single blanks, no comma before a closing bracket, and
not both a colon and a comma or `{`. -/
structure Content (s : Str) : Prop where
  quotes : '\'' ∉ s ∧ '"' ∉ s
  blanks : ∀ c ∈ s, White c → c = ' '
  single : ∀ pre post, s ≠ pre ++ ' ' :: ' ' :: post
  commas : ∀ pre c post, s = pre ++ ',' :: c :: post → c ≠ '}' ∧ c ≠ ']'
  commas' : ∀ pre c post, s = pre ++ ',' :: ' ' :: c :: post → c ≠ '}' ∧ c ≠ ']'
  keys : ':' ∉ s ∨ (',' ∉ s ∧ '{' ∉ s)

/-- Characters of bare words. -/
def BareChar (c : Char) : Prop :=
  ¬ White c ∧ c ≠ '\'' ∧ c ≠ '"' ∧ c ≠ '[' ∧ c ≠ ']' ∧ c ≠ '{' ∧ c ≠ '}' ∧ c ≠ ',' ∧ c ≠ ':'

/-- A token is well formed. -/
def Tok.Good : Tok → Prop
  | .str _ s => Content s
  | .bare s => s ≠ [] ∧ ∀ c ∈ s, BareChar c
  | .ws s => s ≠ [] ∧ ∀ c ∈ s, White c
  | _ => True

def Tok.isWs : Tok → Bool
  | .ws _ => true
  | _ => false

/-- Neither white space nor a string. -/
def Tok.solid : Tok → Bool
  | .ws _ => false
  | .str _ _ => false
  | _ => true

/-- The tokens without leading white space. -/
def skip (ts : List Tok) : List Tok := ts.dropWhile Tok.isWs

/-- Quotes become double quotes, white space becomes one blank. -/
def Tok.norm : Tok → Tok
  | .str _ s => .str true s
  | .ws _ => .ws [' ']
  | t => t

def Tok.isClosing : Tok → Bool
  | .closing _ => true
  | _ => false

/-- The next token that is not white space is a closing bracket. -/
def closesNext (ts : List Tok) : Bool := (skip ts).head?.any Tok.isClosing

/-- Remove every comma that is followed by a closing bracket, with the white space in between (`sk`: just after such a comma). -/
def noTrailing : Bool → List Tok → List Tok
  | _, [] => []
  | true, .ws _ :: r => noTrailing true r
  | _, .comma :: r => if closesNext r then noTrailing true r else .comma :: noTrailing false r
  | _, t :: r => t :: noTrailing false r

/-- The bare word that the tokens begin with, if a colon follows it: the word and the tokens after the colon. -/
def keyAt (ts : List Tok) : Option (Str × List Tok) :=
  match skip ts with
  | .bare k :: r =>
    match skip r with
    | .colon :: r' => some (k, r')
    | _ => none
  | _ => none

/-- `{` and `,`, after which a key may come. -/
def Tok.trigger : Tok → Bool
  | .opening false => true
  | .comma => true
  | _ => false

/-- Put every bare key in quotes (the fuel is the number of tokens). -/
def quoteBare : Nat → List Tok → List Tok
  | 0, ts => ts
  | _, [] => []
  | n + 1, t :: ts =>
    if t.trigger then
      match keyAt ts with
      | some (k, r) => t :: .str true k :: .colon :: quoteBare n r
      | none => t :: quoteBare n ts
    else t :: quoteBare n ts

/-- Without white space at both ends. -/
def trim (ts : List Tok) : List Tok := (skip (skip ts).reverse).reverse

/-- The repaired text: double quotes, single blanks, no trailing commas, quoted keys, no white space at the ends. -/
def repair (ts : List Tok) : List Tok :=
  trim (quoteBare (noTrailing false (ts.map Tok.norm)).length (noTrailing false (ts.map Tok.norm)))

def startsColon (ts : List Tok) : Prop := ∃ r, skip ts = .colon :: r

/-- What may follow `{` or `,`: up to the next white space or string there is no colon, or exactly a bare key and its colon; and a colon
after that white space only belongs to a bare key alone. -/
def KeyOk (ts : List Tok) : Prop :=
  (.colon ∉ (skip ts).takeWhile Tok.solid ∧ ¬ startsColon ((skip ts).dropWhile Tok.solid)) ∨
  (∃ k, (skip ts).takeWhile Tok.solid = [.bare k, .colon] ∧ ¬ startsColon ((skip ts).dropWhile Tok.solid)) ∨
  (∃ k, (skip ts).takeWhile Tok.solid = [.bare k] ∧ startsColon ((skip ts).dropWhile Tok.solid))

/-- The texts considered. -/
structure Tokenised (ts : List Tok) : Prop where
  good : ∀ t ∈ ts, t.Good
  separated : ∀ pre w w' post, ts ≠ pre ++ .ws w :: .ws w' :: post
  keys : ∀ pre t post, noTrailing false (ts.map Tok.norm) = pre ++ t :: post → t.trigger = true → KeyOk post

/-! ## Characters -/

theorem isSpace_iff (c : Char) : isSpace c = true ↔ White c := by
  exact Py.isSpace_iff c

theorem isSpace_false (c : Char) (h : ¬ White c) : isSpace c = false := by
  cases e : isSpace c with
  | false => rfl
  | true => exact absurd ((isSpace_iff c).1 e) h

theorem white_true (c : Char) (h : White c) : isSpace c = true := (isSpace_iff c).2 h

theorem text_cons (t : Tok) (ts : List Tok) : text (t :: ts) = t.text ++ text ts := rfl
theorem text_nil : text [] = [] := rfl

/-! ## Quotes -/

theorem requote_append (a b : Str) : requote (a ++ b) = requote a ++ requote b := by simp [requote]

def Tok.dq : Tok → Tok
  | .str _ s => .str true s
  | t => t

theorem requote_tok (t : Tok) (h : t.Good) : requote t.text = t.dq.text := by
  cases t with
  | opening b => cases b <;> decide
  | closing b => cases b <;> decide
  | comma => decide
  | colon => decide
  | str b s =>
    have hs := requote_id s h.quotes.1
    unfold requote at hs
    cases b <;> simp [Tok.text, Tok.dq, requote, hs]
  | bare s =>
    refine requote_id s (fun hm => (h.2 _ hm).2.1 rfl)
  | ws s =>
    refine requote_id s (fun hm => ?_)
    rcases h.2 _ hm with h | h | h | h | h | h <;> exact absurd h (by decide)

theorem requote_text (ts : List Tok) (h : ∀ t ∈ ts, t.Good) : requote (text ts) = text (ts.map Tok.dq) := by
  induction ts with
  | nil => rfl
  | cons t ts ih =>
    rw [text_cons, requote_append, requote_tok t (h t (by simp)), ih (fun u hu => h u (by simp [hu]))]
    rfl

/-! ## White space -/

theorem collapse_nonspace (s r : Str) (h : ∀ c ∈ s, isSpace c = false) : collapse false (s ++ r) = s ++ collapse false r := by
  induction s with
  | nil => rfl
  | cons c s ih =>
    have hc := h c (by simp)
    rw [List.cons_append, collapse, hc, ih (fun x hx => h x (by simp [hx]))]
    rfl

theorem collapse_true (c : Char) (r : Str) (h : isSpace c = false) : collapse true (c :: r) = collapse false (c :: r) := by
  rw [collapse, collapse, h]
  rfl

theorem collapse_white (w r : Str) (h : ∀ c ∈ w, isSpace c = true) : collapse true (w ++ r) = collapse true r := by
  induction w with
  | nil => rfl
  | cons c w ih =>
    rw [List.cons_append, collapse, h c (by simp), ih (fun x hx => h x (by simp [hx]))]
    rfl

theorem collapse_content (s r : Str) (q : Char) (hq : isSpace q = false) (h1 : ∀ c ∈ s, White c → c = ' ')
    (h2 : ∀ pre post, s ≠ pre ++ ' ' :: ' ' :: post) :
    collapse false (s ++ q :: r) = s ++ q :: collapse false r ∧
    ((∀ t, s ≠ ' ' :: t) → collapse true (s ++ q :: r) = s ++ q :: collapse false r) := by
  induction s with
  | nil =>
    have e : collapse false (q :: r) = q :: collapse false r := by rw [collapse, hq]; rfl
    exact ⟨e, fun _ => by rw [List.nil_append, collapse_true q r hq, e]; rfl⟩
  | cons c s ih =>
    have h1' : ∀ x ∈ s, White x → x = ' ' := fun x hx => h1 x (by simp [hx])
    have h2' : ∀ pre post, s ≠ pre ++ ' ' :: ' ' :: post := fun pre post e => h2 (c :: pre) post (by rw [e]; rfl)
    obtain ⟨i1, i2⟩ := ih h1' h2'
    by_cases hw : White c
    · have hc := h1 c (by simp) hw
      subst hc
      have hns : ∀ t, s ≠ ' ' :: t := fun t e => h2 [] t (by rw [e]; rfl)
      refine ⟨?_, fun hf => absurd rfl (hf s)⟩
      rw [List.cons_append, collapse, white_true _ hw, if_pos rfl, i2 hns]
      rfl
    · have hf := isSpace_false c hw
      refine ⟨?_, fun _ => ?_⟩
      · rw [List.cons_append, collapse, hf, i1]; rfl
      · rw [List.cons_append, collapse, hf, i1]; rfl

def Tok.blank : Tok → Tok
  | .ws _ => .ws [' ']
  | t => t

/-- First characters of tokens. -/
theorem head_nonspace (t : Tok) (h : t.Good) (hw : t.isWs = false) : ∃ c r, t.text = c :: r ∧ ¬ White c ∧
    (c = ',' → t = .comma) ∧ (c = ':' → t = .colon) ∧ ((c = ']' ∨ c = '}') → ∃ b, t = .closing b) := by
  cases t with
  | opening b =>
    cases b
    · exact ⟨'{', [], rfl, (by unfold White; decide), (by decide), (by decide), (by decide)⟩
    · exact ⟨'[', [], rfl, (by unfold White; decide), (by decide), (by decide), (by decide)⟩
  | closing b =>
    cases b
    · exact ⟨'}', [], rfl, (by unfold White; decide), (by decide), (by decide), fun _ => ⟨_, rfl⟩⟩
    · exact ⟨']', [], rfl, (by unfold White; decide), (by decide), (by decide), fun _ => ⟨_, rfl⟩⟩
  | comma => exact ⟨',', [], rfl, (by unfold White; decide), fun _ => rfl, (by decide), (by decide)⟩
  | colon => exact ⟨':', [], rfl, (by unfold White; decide), (by decide), fun _ => rfl, (by decide)⟩
  | str b s =>
    cases b
    · exact ⟨'\'', s ++ ['\''], rfl, (by unfold White; decide), fun e => absurd e (by decide), fun e => absurd e (by decide),
        fun e => absurd e (by decide)⟩
    · exact ⟨'"', s ++ ['"'], rfl, (by unfold White; decide), fun e => absurd e (by decide), fun e => absurd e (by decide),
        fun e => absurd e (by decide)⟩
  | bare s =>
    cases s with
    | nil => exact absurd rfl h.1
    | cons c s =>
      obtain ⟨h1, h2, h3, h4, h5, h6, h7, h8, h9⟩ := h.2 c (by simp)
      exact ⟨c, s, rfl, h1, fun e => absurd e h8, fun e => absurd e h9, fun e => absurd e (by simp [h5, h7])⟩
  | ws s => cases hw

theorem collapse_tok (t : Tok) (h : t.Good) (hw : t.isWs = false) (r : Str) : collapse false (t.text ++ r) = t.text ++ collapse false r := by
  cases t with
  | opening b => cases b <;> exact collapse_nonspace _ _ (by decide)
  | closing b => cases b <;> exact collapse_nonspace _ _ (by decide)
  | comma => exact collapse_nonspace _ _ (by decide)
  | colon => exact collapse_nonspace _ _ (by decide)
  | str b s =>
    cases b
    · have := (collapse_content s r '\'' (by decide) h.blanks h.single).1
      show collapse false ('\'' :: ((s ++ ['\'']) ++ r)) = '\'' :: ((s ++ ['\'']) ++ collapse false r)
      rw [collapse, show isSpace '\'' = false by decide]
      simp only [List.append_assoc, List.singleton_append, List.cons_append, List.nil_append]
      rw [this]
      rfl
    · have := (collapse_content s r '"' (by decide) h.blanks h.single).1
      show collapse false ('"' :: ((s ++ ['"']) ++ r)) = '"' :: ((s ++ ['"']) ++ collapse false r)
      rw [collapse, show isSpace '"' = false by decide]
      simp only [List.append_assoc, List.singleton_append, List.cons_append, List.nil_append]
      rw [this]
      rfl
  | bare s => exact collapse_nonspace _ _ (fun c hc => isSpace_false c (h.2 c hc).1)
  | ws s => cases hw

theorem collapse_text (ts : List Tok) (h : ∀ t ∈ ts, t.Good) (hs : ∀ pre w w' post, ts ≠ pre ++ .ws w :: .ws w' :: post) :
    collapse false (text ts) = text (ts.map Tok.blank) := by
  induction ts with
  | nil => rfl
  | cons t ts ih =>
    have ih' := ih (fun u hu => h u (by simp [hu])) (fun pre w w' post e => hs (t :: pre) w w' post (by rw [e]; rfl))
    by_cases hw : t.isWs = true
    · cases t with
      | ws w =>
        obtain ⟨hne, hwh⟩ := h (.ws w) (by simp)
        cases w with
        | nil => exact absurd rfl hne
        | cons c w =>
          show collapse false (c :: (w ++ text ts)) = ' ' :: text (ts.map Tok.blank)
          rw [collapse, white_true c (hwh c (by simp)), if_pos rfl, collapse_white _ _ (fun x hx => white_true x (hwh x (by simp [hx]))), ← ih']
          congr 1
          cases ts with
          | nil => rfl
          | cons u us =>
            have hu : u.isWs = false := by
              cases u with
              | ws w' => exact absurd rfl (hs [] (c :: w) w' us)
              | _ => rfl
            obtain ⟨d, r, hd, hnw, _⟩ := head_nonspace u (h u (by simp)) hu
            rw [text_cons, hd]
            exact collapse_true d _ (isSpace_false d hnw)
      | _ => cases hw
    · have hw : t.isWs = false := by simpa using hw
      rw [text_cons, collapse_tok t (h t (by simp)) hw, ih', List.map_cons, text_cons]
      congr 1
      cases t <;> first | rfl | cases hw

/-! ## Trailing commas -/

theorem skip_cons_ws (w : Str) (ts : List Tok) : skip (.ws w :: ts) = skip ts := rfl

theorem skip_cons (t : Tok) (ts : List Tok) (h : t.isWs = false) : skip (t :: ts) = t :: ts := by
  unfold skip
  rw [List.dropWhile_cons, h]
  rfl

theorem closerNext_white (w r : Str) (h : ∀ c ∈ w, isSpace c = true) : closerNext (w ++ r) = closerNext r := by
  induction w with
  | nil => rfl
  | cons c w ih =>
    rw [List.cons_append, closerNext, h c (by simp), if_pos rfl, ih (fun x hx => h x (by simp [hx]))]

theorem closerNext_text (ts : List Tok) (h : ∀ t ∈ ts, t.Good) : closerNext (text ts) = closesNext ts := by
  induction ts with
  | nil => rfl
  | cons t ts ih =>
    have ih' := ih (fun u hu => h u (by simp [hu]))
    by_cases hw : t.isWs = true
    · cases t with
      | ws w =>
        rw [text_cons, show Tok.text (.ws w) = w from rfl,
          closerNext_white _ _ (fun x hx => white_true x ((h (.ws w) (by simp)).2 x hx)), ih']
        rfl
      | _ => cases hw
    · have hw : t.isWs = false := by simpa using hw
      have hc : closesNext (t :: ts) = t.isClosing := by
        unfold closesNext
        rw [skip_cons t ts hw]
        rfl
      obtain ⟨c, r, hd, hnw, _, _, hcl⟩ := head_nonspace t (h t (by simp)) hw
      rw [hc, text_cons, hd, List.cons_append, closerNext, isSpace_false c hnw]
      show isCloser c = _
      cases t with
      | closing b => cases b <;> (cases hd; rfl)
      | opening b => cases b <;> (cases hd; rfl)
      | comma => cases hd; rfl
      | colon => cases hd; rfl
      | str b s => cases b <;> (cases hd; rfl)
      | bare s =>
        have hno : ¬ (c = ']' ∨ c = '}') := fun e => by obtain ⟨b, hb⟩ := hcl e; cases hb
        simp only [not_or] at hno
        unfold isCloser
        simp [hno.1, hno.2, Tok.isClosing]
      | ws w => cases hw

theorem dropCommas_plain (s r : Str) (h : ',' ∉ s) : dropCommas false (s ++ r) = s ++ dropCommas false r := by
  induction s with
  | nil => rfl
  | cons c s ih =>
    simp only [List.mem_cons, not_or] at h
    rw [List.cons_append, dropCommas, decide_eq_false (fun e => h.1 e.symm), ih h.2]
    rfl

theorem dropCommas_content (s r : Str) (q : Char) (hq : q ≠ ',') (hq1 : isSpace q = false) (hq2 : isCloser q = false) (h1 : ∀ c ∈ s, White c → c = ' ')
    (h2 : ∀ pre post, s ≠ pre ++ ' ' :: ' ' :: post)
    (h3 : ∀ pre c post, s = pre ++ ',' :: c :: post → c ≠ '}' ∧ c ≠ ']')
    (h4 : ∀ pre c post, s = pre ++ ',' :: ' ' :: c :: post → c ≠ '}' ∧ c ≠ ']') :
    dropCommas false (s ++ q :: r) = s ++ q :: dropCommas false r := by
  induction s with
  | nil => rw [List.nil_append, dropCommas, decide_eq_false hq]; rfl
  | cons c s ih =>
    have ih' := ih (fun x hx => h1 x (by simp [hx])) (fun pre post e => h2 (c :: pre) post (by rw [e]; rfl))
      (fun pre x post e => h3 (c :: pre) x post (by rw [e]; rfl)) (fun pre x post e => h4 (c :: pre) x post (by rw [e]; rfl))
    rw [List.cons_append, dropCommas]
    have hcl : (decide (c = ',') && closerNext (s ++ q :: r)) = false := by
      by_cases hc : c = ','
      · subst hc
        have : closerNext (s ++ q :: r) = false := by
          cases s with
          | nil => rw [List.nil_append, closerNext, hq1]; exact hq2
          | cons d s =>
            have hd := h3 [] d s rfl
            by_cases hw : White d
            · have := h1 d (by simp) hw
              subst this
              rw [List.cons_append, closerNext, white_true _ hw, if_pos rfl]
              cases s with
              | nil => rw [List.nil_append, closerNext, hq1]; exact hq2
              | cons e s =>
                have he := h4 [] e s rfl
                have hnw : ¬ White e := fun hw' => by
                  have := h1 e (by simp) hw'
                  subst this
                  exact h2 [','] s rfl
                rw [List.cons_append, closerNext, isSpace_false e hnw]
                unfold isCloser
                simp [he.1, he.2]
            · rw [List.cons_append, closerNext, isSpace_false d hw]
              unfold isCloser
              simp [hd.1, hd.2]
        rw [this, Bool.and_false]
      · rw [decide_eq_false hc, Bool.false_and]
    rw [hcl, ih']
    rfl

theorem dropCommas_tok (t : Tok) (h : t.Good) (hc : t ≠ .comma) (r : Str) : dropCommas false (t.text ++ r) = t.text ++ dropCommas false r := by
  cases t with
  | opening b => cases b <;> exact dropCommas_plain _ _ (by decide)
  | closing b => cases b <;> exact dropCommas_plain _ _ (by decide)
  | comma => exact absurd rfl hc
  | colon => exact dropCommas_plain _ _ (by decide)
  | str b s =>
    cases b
    · have := dropCommas_content s r '\'' (by decide) (by decide) (by decide) h.blanks h.single h.commas h.commas'
      have e2 := dropCommas_plain ['\''] (s ++ '\'' :: r) (by decide)
      rw [this] at e2
      simpa [Tok.text] using e2
    · have := dropCommas_content s r '"' (by decide) (by decide) (by decide) h.blanks h.single h.commas h.commas'
      have e2 := dropCommas_plain ['"'] (s ++ '"' :: r) (by decide)
      rw [this] at e2
      simpa [Tok.text] using e2
  | bare s => exact dropCommas_plain _ _ (fun hm => (h.2 _ hm).2.2.2.2.2.2.2.1 rfl)
  | ws s =>
    refine dropCommas_plain _ _ (fun hm => ?_)
    rcases h.2 _ hm with h | h | h | h | h | h <;> exact absurd h (by decide)

theorem dropCommas_white (w r : Str) (h : ∀ c ∈ w, isSpace c = true) : dropCommas true (w ++ r) = dropCommas true r := by
  induction w with
  | nil => rfl
  | cons c w ih =>
    rw [List.cons_append, dropCommas, h c (by simp), if_pos rfl, ih (fun x hx => h x (by simp [hx]))]

theorem dropCommas_text (ts : List Tok) (h : ∀ t ∈ ts, t.Good) :
    dropCommas false (text ts) = text (noTrailing false ts) ∧ (closesNext ts = true → dropCommas true (text ts) = text (noTrailing true ts)) := by
  induction ts with
  | nil => exact ⟨rfl, fun h => by cases h⟩
  | cons t ts ih =>
    obtain ⟨i1, i2⟩ := ih (fun u hu => h u (by simp [hu]))
    have hg := h t (by simp)
    by_cases hc : t = .comma
    · subst hc
      refine ⟨?_, fun h => by cases h⟩
      show dropCommas false (',' :: text ts) = _
      have hcn := closerNext_text ts (fun u hu => h u (by simp [hu]))
      rw [dropCommas, decide_eq_true rfl, Bool.true_and, hcn]
      cases hcl : closesNext ts with
      | true => rw [if_pos rfl, i2 hcl, noTrailing, hcl, if_pos rfl]
      | false =>
        rw [i1, noTrailing, hcl]
        rfl
    · refine ⟨?_, ?_⟩
      · rw [text_cons, dropCommas_tok t hg hc, i1]
        have : noTrailing false (t :: ts) = t :: noTrailing false ts := by
          cases t <;> first | rfl | exact absurd rfl hc
        rw [this]
        rfl
      · intro hcl
        by_cases hw : t.isWs = true
        · cases t with
          | ws w =>
            rw [text_cons, show Tok.text (.ws w) = w from rfl, dropCommas_white _ _ (fun x hx => white_true x (hg.2 x hx)), i2 hcl]
            rfl
          | _ => cases hw
        · have hw : t.isWs = false := by simpa using hw
          unfold closesNext at hcl
          rw [skip_cons t ts hw] at hcl
          cases t with
          | closing b =>
            show dropCommas true (Tok.text (.closing b) ++ text ts) = Tok.text (.closing b) ++ text (noTrailing false ts)
            rw [← i1]
            cases b <;> rfl
          | _ => cases hcl

/-! ## Keys -/

theorem skipWs_white (w r : Str) (h : ∀ c ∈ w, isSpace c = true) : skipWs (w ++ r) = skipWs r := by
  induction w with
  | nil => rfl
  | cons c w ih =>
    rw [List.cons_append, skipWs, h c (by simp), if_pos rfl, ih (fun x hx => h x (by simp [hx]))]

theorem skipWs_nonspace (c : Char) (r : Str) (h : isSpace c = false) : skipWs (c :: r) = c :: r := by
  rw [skipWs, h]
  rfl

theorem skipWs_text (ts : List Tok) (h : ∀ t ∈ ts, t.Good) : skipWs (text ts) = text (skip ts) := by
  induction ts with
  | nil => rfl
  | cons t ts ih =>
    by_cases hw : t.isWs = true
    · cases t with
      | ws w =>
        rw [text_cons, show Tok.text (.ws w) = w from rfl,
          skipWs_white _ _ (fun x hx => white_true x ((h (.ws w) (by simp)).2 x hx)), ih (fun u hu => h u (by simp [hu]))]
        rfl
      | _ => cases hw
    · have hw : t.isWs = false := by simpa using hw
      obtain ⟨c, r, hd, hnw, _⟩ := head_nonspace t (h t (by simp)) hw
      rw [skip_cons t ts hw, text_cons, hd, List.cons_append, skipWs_nonspace c _ (isSpace_false c hnw)]

/-- Characters of a run of key characters. -/
def KeyChar (c : Char) : Prop := c ≠ '"' ∧ isSpace c = false

theorem keyRun_chars (s r : Str) (h : ∀ c ∈ s, KeyChar c) : keyRun (s ++ r) = (s ++ (keyRun r).1, (keyRun r).2) := by
  induction s with
  | nil => rfl
  | cons c s ih =>
    obtain ⟨h1, h2⟩ := h c (by simp)
    rw [List.cons_append, keyRun, ih (fun x hx => h x (by simp [hx])), decide_eq_false h1, h2]
    rfl

theorem solid_chars (t : Tok) (h : t.Good) (hs : t.solid = true) : ∀ c ∈ t.text, KeyChar c := by
  cases t with
  | opening b => cases b <;> (intro c hc; cases List.mem_singleton.1 hc; exact ⟨by decide, by decide⟩)
  | closing b => cases b <;> (intro c hc; cases List.mem_singleton.1 hc; exact ⟨by decide, by decide⟩)
  | comma => intro c hc; cases List.mem_singleton.1 hc; exact ⟨by decide, by decide⟩
  | colon => intro c hc; cases List.mem_singleton.1 hc; exact ⟨by decide, by decide⟩
  | str b s => cases hs
  | bare s => intro c hc; exact ⟨(h.2 c hc).2.2.1, isSpace_false c (h.2 c hc).1⟩
  | ws s => cases hs

/-- In texts with double quotes only, a run of key characters ends at the next string or white space. -/
theorem keyRun_text (ts : List Tok) (h : ∀ t ∈ ts, t.Good) (hd : ∀ s, .str false s ∉ ts) :
    keyRun (text ts) = (text (ts.takeWhile Tok.solid), text (ts.dropWhile Tok.solid)) := by
  induction ts with
  | nil => rfl
  | cons t ts ih =>
    have ih' := ih (fun u hu => h u (by simp [hu])) (fun s hs => hd s (by simp [hs]))
    cases hs : t.solid with
    | true =>
      rw [text_cons, keyRun_chars _ _ (solid_chars t (h t (by simp)) hs), ih', List.takeWhile_cons, List.dropWhile_cons, hs, if_pos rfl, if_pos rfl]
      rfl
    | false =>
      rw [List.takeWhile_cons, List.dropWhile_cons, hs]
      cases t with
      | str b s =>
        cases b with
        | false => exact absurd (List.mem_cons_self ..) (hd s)
        | true => rfl
      | ws w =>
        obtain ⟨hne, hw⟩ := h (.ws w) (by simp)
        cases w with
        | nil => exact absurd rfl hne
        | cons c w =>
          show keyRun (c :: (w ++ text ts)) = ([], c :: (w ++ text ts))
          rw [keyRun, white_true c (hw c (by simp)), Bool.or_true, if_pos rfl]
      | _ => cases hs

theorem spanLoop_eq (p : Char → Bool) (l acc : Str) : List.span.loop p l acc = (acc.reverse ++ l.takeWhile p, l.dropWhile p) := by
  induction l generalizing acc with
  | nil => simp [List.span.loop]
  | cons c l ih =>
    rw [List.span.loop, List.takeWhile_cons, List.dropWhile_cons]
    cases h : p c with
    | true => simp [ih]
    | false => simp

theorem span_eq (p : Char → Bool) (l : Str) : l.span p = (l.takeWhile p, l.dropWhile p) := by
  show List.span.loop p l [] = _
  rw [spanLoop_eq]
  rfl

theorem takeWhile_all (p : Char → Bool) (l : Str) (h : ∀ c ∈ l, p c = true) : l.takeWhile p = l := by
  induction l with
  | nil => rfl
  | cons c l ih =>
    rw [List.takeWhile_cons, h c (by simp), if_pos rfl, ih (fun x hx => h x (by simp [hx]))]

theorem dropWhile_all (p : Char → Bool) (l : Str) (h : ∀ c ∈ l, p c = true) : l.dropWhile p = [] := by
  induction l with
  | nil => rfl
  | cons c l ih =>
    rw [List.dropWhile_cons, h c (by simp), if_pos rfl, ih (fun x hx => h x (by simp [hx]))]

theorem lastColon_none (r : Str) (h : ':' ∉ r) : lastColon r = none := by
  unfold lastColon
  have : r.reverse.span (fun c => !decide (c = ':')) = (r.reverse, []) := by
    rw [span_eq]
    have hall : ∀ c ∈ r.reverse, (!decide (c = ':')) = true := by
      intro c hc
      have : c ≠ ':' := fun e => h (by rw [← e]; simpa using hc)
      simp [this]
    rw [takeWhile_all _ _ hall, dropWhile_all _ _ hall]
  rw [this]

theorem lastColon_end (k : Str) (hne : k ≠ []) : lastColon (k ++ [':']) = some (k, []) := by
  unfold lastColon
  have : (k ++ [':']).reverse.span (fun c => !decide (c = ':')) = ([], ':' :: k.reverse) := by
    rw [span_eq, List.reverse_append]
    rfl
  rw [this]
  simp [hne]

theorem text_noColon (ts : List Tok) (h : ∀ t ∈ ts, t.Good) (hs : ∀ t ∈ ts, t.solid = true) (hc : .colon ∉ ts) : ':' ∉ text ts := by
  intro hm
  obtain ⟨t, ht, hmt⟩ := List.mem_flatMap.1 hm
  have hg := h t ht
  have hso := hs t ht
  cases t with
  | colon => exact hc ht
  | opening b => cases b <;> exact absurd (List.mem_singleton.1 hmt) (by decide)
  | closing b => cases b <;> exact absurd (List.mem_singleton.1 hmt) (by decide)
  | comma => exact absurd (List.mem_singleton.1 hmt) (by decide)
  | str b s => cases hso
  | bare s => exact (hg.2 _ hmt).2.2.2.2.2.2.2.2 rfl
  | ws s => cases hso

theorem head_colon (ts : List Tok) (h : ∀ t ∈ ts, t.Good) :
    (∀ r, skip ts = .colon :: r → skipWs (text ts) = ':' :: text r) ∧ (¬ startsColon ts → ∀ r, skipWs (text ts) ≠ ':' :: r) := by
  rw [skipWs_text ts h]
  refine ⟨fun r hr => by rw [hr]; rfl, ?_⟩
  intro hn r hr
  cases hs : skip ts with
  | nil => rw [hs] at hr; cases hr
  | cons t rest =>
    rw [hs] at hr
    have ht : t ∈ ts := List.dropWhile_subset _ (by show t ∈ skip ts; rw [hs]; simp)
    have hw : t.isWs = false := by
      cases e : t.isWs with
      | false => rfl
      | true =>
        have := List.head_dropWhile_not Tok.isWs (l := ts) (by show skip ts ≠ []; rw [hs]; simp)
        have h2 : (skip ts).head (by rw [hs]; simp) = t := by simp [hs]
        have h3 : Tok.isWs ((skip ts).head (by rw [hs]; simp)) = false := this
        rw [h2, e] at h3
        cases h3
    obtain ⟨c, r', hd, _, _, hcol, _⟩ := head_nonspace t (h t ht) hw
    rw [text_cons, hd] at hr
    simp only [List.cons_append, List.cons.injEq] at hr
    have := hcol hr.1
    subst this
    exact hn ⟨rest, hs⟩

theorem keyMatch_none (s : Str) (r rest : Str) (h1 : keyRun (skipWs s) = (r, rest)) (h2 : ':' ∉ r) (h3 : ∀ t, skipWs rest ≠ ':' :: t) :
    keyMatch s = none := by
  unfold keyMatch
  rw [h1]
  cases r with
  | nil => rfl
  | cons c r =>
    simp only
    rw [lastColon_none _ h2]
    rfl

theorem keyMatch_text (ts : List Tok) (h : ∀ t ∈ ts, t.Good) (hd : ∀ s, .str false s ∉ ts) (hk : KeyOk ts) :
    keyMatch (text ts) = (keyAt ts).map (fun p => (p.1, text p.2)) := by
  have hsub : ∀ t ∈ skip ts, t ∈ ts := fun t ht => List.dropWhile_subset _ ht
  have hg : ∀ t ∈ skip ts, t.Good := fun t ht => h t (hsub t ht)
  have hrun := keyRun_text (skip ts) hg (fun s hs => hd s (hsub _ hs))
  rw [← skipWs_text ts h] at hrun
  have hg1 : ∀ t ∈ (skip ts).takeWhile Tok.solid, t.Good := fun t ht => hg t (List.takeWhile_subset _ ht)
  have hg2 : ∀ t ∈ (skip ts).dropWhile Tok.solid, t.Good := fun t ht => hg t (List.dropWhile_subset _ ht)
  have hsol : ∀ t ∈ (skip ts).takeWhile Tok.solid, t.solid = true := fun t ht => List.all_eq_true.1 List.all_takeWhile t ht
  have hsplit : (skip ts).takeWhile Tok.solid ++ (skip ts).dropWhile Tok.solid = skip ts := List.takeWhile_append_dropWhile
  obtain ⟨c1, c2⟩ := head_colon _ hg2
  generalize hrn : (skip ts).takeWhile Tok.solid = run at *
  generalize hrs : (skip ts).dropWhile Tok.solid = rest at *
  unfold KeyOk at hk
  rw [hrn, hrs] at hk
  unfold keyAt
  rw [← hsplit]
  rcases hk with ⟨k1, k2⟩ | ⟨k, k1, k2⟩ | ⟨k, k1, r, k2⟩
  · rw [keyMatch_none _ _ _ hrun (text_noColon run hg1 hsol k1) (c2 k2)]
    cases run with
    | nil =>
      have : ∀ k r, rest ≠ .bare k :: r := by
        intro k r e
        have hne : (skip ts).dropWhile Tok.solid ≠ [] := by rw [hrs, e]; simp
        have h3 := List.head_dropWhile_not Tok.solid (l := skip ts) hne
        have h4 : ((skip ts).dropWhile Tok.solid).head hne = .bare k := by simp [hrs, e]
        rw [h4] at h3
        cases h3
      rw [List.nil_append]
      cases rest with
      | nil => rfl
      | cons t rest =>
        cases t with
        | bare k => exact absurd rfl (this k rest)
        | _ => rfl
    | cons t run =>
      cases t with
      | bare k =>
        rw [List.cons_append]
        simp only
        cases run with
        | nil =>
          rw [List.nil_append]
          split
          · next r' hr' => exact absurd ⟨r', hr'⟩ k2
          · rfl
        | cons u run =>
          have hu : u.solid = true := hsol u (by simp)
          have hw : u.isWs = false := by cases u <;> first | rfl | cases hu
          rw [List.cons_append, skip_cons _ _ hw]
          split
          · next r' hr' =>
            cases hr'
            exact absurd (by simp) k1
          · rfl
      | _ => rfl
  · subst k1
    have hkg := hg1 (.bare k) (by simp)
    have e1 : text [Tok.bare k, .colon] = k ++ [':'] := by simp [text, Tok.text]
    rw [e1] at hrun
    have : keyMatch (text ts) = some (k, text rest) := by
      unfold keyMatch
      rw [hrun]
      cases k with
      | nil => exact absurd rfl hkg.1
      | cons c k =>
        simp only [List.cons_append]
        split
        · next t ht => exact absurd ht (c2 k2 t)
        · have := lastColon_end (c :: k) (by simp)
          rw [List.cons_append] at this
          rw [this]
          rfl
    rw [this]
    rfl
  · subst k1
    have hkg := hg1 (.bare k) (by simp)
    have e1 : text [Tok.bare k] = k := by simp [text, Tok.text]
    rw [e1] at hrun
    have : keyMatch (text ts) = some (k, text r) := by
      unfold keyMatch
      rw [hrun]
      cases k with
      | nil => exact absurd rfl hkg.1
      | cons c k =>
        simp only
        rw [c1 r k2]
        rfl
    rw [this]
    simp only [List.cons_append, List.nil_append, k2]
    rfl

/-- Characters that are not `{` or `,` are kept. -/
theorem quoteKeys_plain (s r : Str) (n : Nat) (h1 : '{' ∉ s) (h2 : ',' ∉ s) (hn : s.length ≤ n) :
    quoteKeys n (s ++ r) = s ++ quoteKeys (n - s.length) r := by
  induction s generalizing n with
  | nil => rfl
  | cons c s ih =>
    simp only [List.mem_cons, not_or] at h1 h2
    cases n with
    | zero => simp at hn
    | succ n =>
      rw [List.cons_append, quoteKeys, decide_eq_false (fun e => h1.1 e.symm), decide_eq_false (fun e => h2.1 e.symm),
        Bool.or_false, if_neg (by decide), ih n h1.2 h2.2 (by simpa using hn)]
      simp

/-- Inside a string without colons nothing is taken for a key. -/
theorem keyMatch_content (s r : Str) (h1 : ':' ∉ s) (h2 : '"' ∉ s) : keyMatch (s ++ '"' :: r) = none := by
  have sk : ∀ s : Str, ':' ∉ s → '"' ∉ s → ∃ s', skipWs (s ++ '"' :: r) = s' ++ '"' :: r ∧ ':' ∉ s' ∧ '"' ∉ s' := by
    intro s
    induction s with
    | nil => intro _ _; exact ⟨[], skipWs_nonspace _ _ (by decide), by simp, by simp⟩
    | cons c s ih =>
      intro h1 h2
      simp only [List.mem_cons, not_or] at h1 h2
      cases hc : isSpace c with
      | true =>
        obtain ⟨s', e, a, b⟩ := ih h1.2 h2.2
        exact ⟨s', by rw [List.cons_append, skipWs, hc, if_pos rfl, e], a, b⟩
      | false =>
        exact ⟨c :: s, by rw [List.cons_append, skipWs_nonspace c _ hc], by simp [h1], by simp [h2]⟩
  have kr : ∀ s : Str, ':' ∉ s → '"' ∉ s → ∃ a b, keyRun (s ++ '"' :: r) = (a, b ++ '"' :: r) ∧ ':' ∉ a ∧ ':' ∉ b ∧ '"' ∉ b := by
    intro s
    induction s with
    | nil => intro _ _; exact ⟨[], [], rfl, by simp, by simp, by simp⟩
    | cons c s ih =>
      intro h1 h2
      have h1' := h1
      have h2' := h2
      simp only [List.mem_cons, not_or] at h1 h2
      rw [List.cons_append, keyRun]
      by_cases hc : (decide (c = '"') || isSpace c) = true
      · rw [if_pos hc]
        exact ⟨[], c :: s, rfl, by simp, h1', h2'⟩
      · rw [if_neg hc]
        obtain ⟨a, b, e, x, y, z⟩ := ih h1.2 h2.2
        exact ⟨c :: a, b, by rw [e], by simp [h1, x], y, z⟩
  obtain ⟨s', e1, a1, a2⟩ := sk s h1 h2
  obtain ⟨a, b, e2, b1, b2, b3⟩ := kr s' a1 a2
  obtain ⟨b', e3, d1, d2⟩ := sk b b2 b3
  refine keyMatch_none _ a (b ++ '"' :: r) (by rw [e1, e2]) b1 ?_
  intro t ht
  rw [e3] at ht
  cases b' with
  | nil => simp at ht
  | cons c b' =>
    simp only [List.cons_append, List.cons.injEq] at ht
    exact d1 (by rw [ht.1]; simp)

theorem quoteKeys_content (s r : Str) (n : Nat) (h1 : ':' ∉ s) (h2 : '"' ∉ s) (hn : s.length + 1 ≤ n) :
    quoteKeys n (s ++ '"' :: r) = s ++ '"' :: quoteKeys (n - s.length - 1) r := by
  induction s generalizing n with
  | nil =>
    cases n with
    | zero => simp at hn
    | succ n => rw [List.nil_append, quoteKeys]; rfl
  | cons c s ih =>
    simp only [List.mem_cons, not_or] at h1 h2
    cases n with
    | zero => simp at hn
    | succ n =>
      have ih' := ih n h1.2 h2.2 (by simpa using hn)
      rw [List.cons_append, quoteKeys]
      have e : n + 1 - (c :: s).length - 1 = n - s.length - 1 := by simp
      split
      · rw [keyMatch_content s r h1.2 h2.2]
        simp only
        rw [ih', e]
        rfl
      · rw [ih', e]
        rfl

theorem quoteKeys_str (s r : Str) (n : Nat) (h : Content s) (hn : s.length + 2 ≤ n) :
    quoteKeys n ('"' :: (s ++ '"' :: r)) = '"' :: (s ++ '"' :: quoteKeys (n - s.length - 2) r) := by
  cases n with
  | zero => simp at hn
  | succ n =>
    rw [quoteKeys, if_neg (by decide)]
    have e : n + 1 - s.length - 2 = n - s.length - 1 := by omega
    rcases h.keys with h1 | ⟨h1, h2⟩
    · rw [quoteKeys_content s r n h1 h.quotes.2 (by omega), e]
    · have := quoteKeys_plain (s ++ ['"']) r n (by simp [h2]) (by simp [h1]) (by simp; omega)
      simp only [List.append_assoc, List.singleton_append, List.length_append, List.length_singleton] at this
      rw [this, e]
      congr 3

theorem keyAt_suffix (ts : List Tok) (k : Str) (r : List Tok) (h : keyAt ts = some (k, r)) :
    r.length < ts.length ∧ (∃ pre, ts = pre ++ r) ∧ .bare k ∈ ts := by
  unfold keyAt at h
  have sk : ∀ l : List Tok, ∃ p, l = p ++ skip l := fun l => ⟨l.takeWhile Tok.isWs, List.takeWhile_append_dropWhile.symm⟩
  obtain ⟨p, hp⟩ := sk ts
  split at h
  · next k' r' hr =>
    obtain ⟨q, hq⟩ := sk r'
    split at h
    · next r'' hr'' =>
      simp only [Option.some.injEq, Prod.mk.injEq] at h
      obtain ⟨rfl, rfl⟩ := h
      rw [hr] at hp
      rw [hr''] at hq
      refine ⟨?_, ⟨p ++ .bare k' :: (q ++ [.colon]), ?_⟩, ?_⟩
      · rw [hp, hq]; simp; omega
      · rw [hp, hq]; simp
      · rw [hp]; simp
    · cases h
  · cases h

theorem text_length_suffix (pre r : List Tok) : (text r).length ≤ (text (pre ++ r)).length := by
  unfold text
  rw [List.flatMap_append, List.length_append]
  omega

theorem quoteKeys_text (m : Nat) : ∀ (ts : List Tok) (n : Nat), ts.length ≤ m → (text ts).length ≤ n → (∀ t ∈ ts, t.Good) →
    (∀ s, .str false s ∉ ts) → (∀ pre t post, ts = pre ++ t :: post → t.trigger = true → KeyOk post) →
    quoteKeys n (text ts) = text (quoteBare m ts) := by
  induction m with
  | zero =>
    intro ts n h1 h2 h3 h4 h5
    have : ts = [] := List.eq_nil_of_length_eq_zero (by omega)
    subst this
    cases n <;> rfl
  | succ m ih =>
    intro ts n h1 h2 h3 h4 h5
    cases ts with
    | nil => cases n <;> rfl
    | cons t ts =>
      have g1 : ts.length ≤ m := by simpa using h1
      have g3 : ∀ u ∈ ts, u.Good := fun u hu => h3 u (by simp [hu])
      have g4 : ∀ s, .str false s ∉ ts := fun s hs => h4 s (by simp [hs])
      have g5 : ∀ pre u post, ts = pre ++ u :: post → u.trigger = true → KeyOk post :=
        fun pre u post e => h5 (t :: pre) u post (by rw [e]; rfl)
      have hg := h3 t (by simp)
      have hlen : (text (t :: ts)).length = t.text.length + (text ts).length := by rw [text_cons, List.length_append]
      rw [hlen] at h2
      cases htr : t.trigger with
      | true =>
        have hk : KeyOk ts := h5 [] t ts rfl htr
        have hkm := keyMatch_text ts g3 g4 hk
        have hone : ∃ c, t.text = [c] ∧ (decide (c = '{') || decide (c = ',')) = true := by
          cases t with
          | opening b => cases b with
            | false => exact ⟨'{', rfl, by decide⟩
            | true => cases htr
          | comma => exact ⟨',', rfl, by decide⟩
          | _ => cases htr
        obtain ⟨c, hc, hcc⟩ := hone
        rw [hc] at h2
        cases n with
        | zero => simp at h2
        | succ n =>
          have h2' : (text ts).length ≤ n := by simp at h2; omega
          rw [text_cons, hc, List.singleton_append, quoteKeys, if_pos hcc, quoteBare, htr, if_pos rfl, hkm]
          cases hka : keyAt ts with
          | none =>
            simp only [Option.map_none]
            rw [ih ts n g1 h2' g3 g4 g5, text_cons, hc]
            rfl
          | some p =>
            obtain ⟨k, r⟩ := p
            obtain ⟨l1, ⟨pre, l2⟩, _⟩ := keyAt_suffix ts k r hka
            have hr : (text r).length ≤ n := by
              have := text_length_suffix pre r
              rw [← l2] at this
              omega
            have := ih r n (by omega) hr (fun u hu => g3 u (by rw [l2]; simp [hu])) (fun s hs => g4 s (by rw [l2]; simp [hs]))
              (fun p u q e => g5 (pre ++ p) u q (by rw [l2, e]; simp))
            simp only [Option.map_some]
            rw [this]
            rw [text_cons, text_cons, text_cons, hc]
            simp [Tok.text]
      | false =>
        rw [quoteBare, htr, if_neg (by decide), text_cons, text_cons]
        have hplain : '{' ∉ t.text → ',' ∉ t.text → quoteKeys n (t.text ++ text ts) = t.text ++ text (quoteBare m ts) := by
          intro x y
          rw [quoteKeys_plain _ _ n x y (by omega), ih ts _ g1 (by omega) g3 g4 g5]
        cases t with
        | opening b => cases b with
          | false => cases htr
          | true => exact hplain (by decide) (by decide)
        | closing b => cases b <;> exact hplain (by decide) (by decide)
        | comma => cases htr
        | colon => exact hplain (by decide) (by decide)
        | str b s =>
          cases b with
          | false => exact absurd (List.mem_cons_self ..) (h4 s)
          | true =>
            have hl : (Tok.text (.str true s)).length = s.length + 2 := by simp [Tok.text]
            have := quoteKeys_str s (text ts) n hg (by omega)
            rw [ih ts _ g1 (by omega) g3 g4 g5] at this
            simpa [Tok.text] using this
        | bare s =>
          exact hplain (fun hm => (hg.2 _ hm).2.2.2.2.2.1 rfl) (fun hm => (hg.2 _ hm).2.2.2.2.2.2.2.1 rfl)
        | ws s =>
          refine hplain (fun hm => ?_) (fun hm => ?_) <;>
          · rcases hg.2 _ hm with h | h | h | h | h | h <;> exact absurd h (by decide)

/-! ## White space at the ends -/

theorem last_nonspace (t : Tok) (h : t.Good) (hw : t.isWs = false) : ∃ r c, t.text = r ++ [c] ∧ ¬ White c := by
  cases t with
  | opening b => cases b <;> exact ⟨[], _, rfl, by unfold White; decide⟩
  | closing b => cases b <;> exact ⟨[], _, rfl, by unfold White; decide⟩
  | comma => exact ⟨[], _, rfl, by unfold White; decide⟩
  | colon => exact ⟨[], _, rfl, by unfold White; decide⟩
  | str b s =>
    cases b
    · exact ⟨'\'' :: s, '\'', rfl, by unfold White; decide⟩
    · exact ⟨'"' :: s, '"', rfl, by unfold White; decide⟩
  | bare s =>
    rcases List.eq_nil_or_concat s with rfl | ⟨r, c, rfl⟩
    · exact absurd rfl h.1
    · exact ⟨r, c, by simp [Tok.text], (h.2 c (by simp)).1⟩
  | ws s => cases hw

theorem text_append (a b : List Tok) : text (a ++ b) = text a ++ text b := by simp [text]

theorem skipWs_text_reverse (ts : List Tok) (h : ∀ t ∈ ts, t.Good) :
    skipWs (text ts).reverse = (text (skip ts.reverse).reverse).reverse := by
  generalize hr : ts.reverse = r
  induction r generalizing ts with
  | nil => rw [List.reverse_eq_nil_iff] at hr; subst hr; rfl
  | cons t r ih =>
    have hl : ts = r.reverse ++ [t] := by rw [← List.reverse_reverse ts, hr]; simp
    subst hl
    have ih' := ih r.reverse (fun u hu => h u (List.mem_append_left _ hu)) (by simp)
    have hg := h t (by simp)
    rw [text_append, List.reverse_append]
    have e1 : text [t] = t.text := by simp [text]
    rw [e1]
    by_cases hw : t.isWs = true
    · cases t with
      | ws w =>
        rw [show Tok.text (.ws w) = w from rfl, skipWs_white _ _ (fun x hx => white_true x (hg.2 x (by simpa using hx))), ih', skip_cons_ws]
      | _ => cases hw
    · have hw : t.isWs = false := by simpa using hw
      obtain ⟨r', c, hd, hnw⟩ := last_nonspace t hg hw
      rw [skip_cons t r hw, hd, List.reverse_append]
      show skipWs (c :: (r'.reverse ++ (text r.reverse).reverse)) = _
      rw [skipWs_nonspace c _ (isSpace_false c hnw), List.reverse_cons, text_append, List.reverse_append, e1, hd]
      simp

theorem strip_text (ts : List Tok) (h : ∀ t ∈ ts, t.Good) : strip (text ts) = text (trim ts) := by
  unfold strip trim
  rw [skipWs_text ts h, skipWs_text_reverse (skip ts) (fun t ht => h t (List.dropWhile_subset _ ht)), List.reverse_reverse]

/-! ## All repairs -/

theorem content_bare (k : Str) (h : ∀ c ∈ k, BareChar c) : Content k := by
  have hsp : ∀ c ∈ k, ¬ White c := fun c hc => (h c hc).1
  refine ⟨⟨fun hm => (h _ hm).2.1 rfl, fun hm => (h _ hm).2.2.1 rfl⟩, fun c hc hw => absurd hw (hsp c hc), ?_, ?_, ?_, ?_⟩
  · intro pre post e
    exact hsp ' ' (by rw [e]; simp) (by decide)
  · intro pre c post e
    exact absurd rfl (h ',' (by rw [e]; simp)).2.2.2.2.2.2.2.1
  · intro pre c post e
    exact absurd rfl (h ',' (by rw [e]; simp)).2.2.2.2.2.2.2.1
  · exact Or.inl (fun hm => (h _ hm).2.2.2.2.2.2.2.2 rfl)

theorem good_norm (t : Tok) (h : t.Good) : t.norm.Good := by
  cases t with
  | ws s => exact ⟨by simp, fun c hc => by rw [List.mem_singleton.1 hc]; decide⟩
  | _ => exact h

theorem noTrailing_mem (b : Bool) (ts : List Tok) (t : Tok) (h : t ∈ noTrailing b ts) : t ∈ ts := by
  induction ts generalizing b with
  | nil => cases b <;> cases h
  | cons u ts ih =>
    cases u with
    | ws w =>
      cases b with
      | true => exact List.mem_cons_of_mem _ (ih true h)
      | false =>
        rcases List.mem_cons.1 h with e | h
        · rw [e]; simp
        · exact List.mem_cons_of_mem _ (ih false h)
    | comma =>
      have e : noTrailing b (.comma :: ts) = if closesNext ts then noTrailing true ts else .comma :: noTrailing false ts := by
        cases b <;> rfl
      rw [e] at h
      split at h
      · exact List.mem_cons_of_mem _ (ih true h)
      · rcases List.mem_cons.1 h with e | h
        · rw [e]; simp
        · exact List.mem_cons_of_mem _ (ih false h)
    | _ =>
      cases b <;>
      · rcases List.mem_cons.1 h with e | h
        · rw [e]; simp
        · exact List.mem_cons_of_mem _ (ih false h)

theorem good_quoteBare (n : Nat) : ∀ ts : List Tok, (∀ t ∈ ts, t.Good) → ∀ t ∈ quoteBare n ts, t.Good := by
  induction n with
  | zero => intro ts h; exact h
  | succ n ih =>
    intro ts h
    cases ts with
    | nil => intro t ht; cases ht
    | cons u ts =>
      have h' : ∀ t ∈ ts, t.Good := fun t ht => h t (by simp [ht])
      intro t ht
      rw [quoteBare] at ht
      split at ht
      · split at ht
        · next k r hk =>
          obtain ⟨_, ⟨pre, e⟩, hm⟩ := keyAt_suffix ts k r hk
          simp only [List.mem_cons] at ht
          rcases ht with rfl | rfl | rfl | ht
          · exact h _ (by simp)
          · exact content_bare k (h' _ hm).2
          · trivial
          · exact ih r (fun v hv => h' v (by rw [e]; simp [hv])) t ht
        · rcases List.mem_cons.1 ht with rfl | ht
          · exact h _ (by simp)
          · exact ih ts h' t ht
      · rcases List.mem_cons.1 ht with rfl | ht
        · exact h _ (by simp)
        · exact ih ts h' t ht

theorem collapse_length (b : Bool) (s : Str) : (collapse b s).length ≤ s.length := by
  induction s generalizing b with
  | nil => cases b <;> exact Nat.le_refl _
  | cons c s ih =>
    have h1 := ih true
    have h2 := ih false
    cases b <;> rw [collapse] <;> split <;> simp <;> omega

theorem dropCommas_length (b : Bool) (s : Str) : (dropCommas b s).length ≤ s.length := by
  induction s generalizing b with
  | nil => cases b <;> exact Nat.le_refl _
  | cons c s ih =>
    have h1 := ih true
    have h2 := ih false
    cases b <;> rw [dropCommas] <;> split <;> simp <;> omega

/-- The cleaned text is the text of the repaired tokens. -/
theorem clean_text (ts : List Tok) (h : Tokenised ts) : clean (text ts) = text (repair ts) := by
  have g1 : ∀ t ∈ ts.map Tok.dq, t.Good := by
    intro t ht
    obtain ⟨u, hu, rfl⟩ := List.mem_map.1 ht
    have := h.good u hu
    cases u <;> exact this
  have hsep : ∀ pre w w' post, ts.map Tok.dq ≠ pre ++ .ws w :: .ws w' :: post := by
    intro pre w w' post e
    obtain ⟨p, q, e1, rfl, e2⟩ := List.map_eq_append_iff.1 e
    obtain ⟨a, q', rfl, ha, e3⟩ := List.map_eq_cons_iff.1 e2
    obtain ⟨b, q'', rfl, hb, e4⟩ := List.map_eq_cons_iff.1 e3
    cases a <;> first | cases ha | skip
    cases b <;> first | cases hb | skip
    exact h.separated p w w' q'' e1
  have e1 : (ts.map Tok.dq).map Tok.blank = ts.map Tok.norm := by
    rw [List.map_map]
    refine List.map_congr_left (fun t _ => ?_)
    cases t <;> rfl
  have g2 : ∀ t ∈ ts.map Tok.norm, t.Good := by
    intro t ht
    obtain ⟨u, hu, rfl⟩ := List.mem_map.1 ht
    exact good_norm u (h.good u hu)
  have g3 : ∀ t ∈ noTrailing false (ts.map Tok.norm), t.Good := fun t ht => g2 t (noTrailing_mem false _ t ht)
  have hq : ∀ s, .str false s ∉ noTrailing false (ts.map Tok.norm) := by
    intro s hs
    obtain ⟨u, _, hu⟩ := List.mem_map.1 (noTrailing_mem false _ _ hs)
    cases u <;> cases hu
  have e2 : dropCommas false (collapse false (requote (text ts))) = text (noTrailing false (ts.map Tok.norm)) := by
    rw [requote_text ts h.good, collapse_text _ g1 hsep, e1, (dropCommas_text _ g2).1]
  have hlen : (text (noTrailing false (ts.map Tok.norm))).length ≤ (text ts).length := by
    rw [← e2]
    have a := dropCommas_length false (collapse false (requote (text ts)))
    have b := collapse_length false (requote (text ts))
    have c : (requote (text ts)).length = (text ts).length := by simp [requote]
    omega
  have e3 := quoteKeys_text _ (noTrailing false (ts.map Tok.norm)) (text ts).length (Nat.le_refl _) hlen g3 hq h.keys
  unfold clean repair
  rw [e2, e3, strip_text _ (good_quoteBare _ _ g3)]

/-! ## C217 -/

/-- **C217** (partial: texts as in `Tokenised`).  A text that is not JSON is repaired token by token: quotes become double quotes around
the same contents, white space between tokens becomes one blank, commas before closing brackets go, bare keys get quotes, and nothing
else changes; the result is parsed, if necessary after adding closing brackets. -/
theorem C217_repaired_partial (loads : Str → Option (J α)) (ts : List Tok) (h : Tokenised ts) (hne : ∃ t ∈ ts, t.isWs = false)
    (hl : loads (text ts) = none) :
    (∀ j, loads (text (repair ts)) = some j → Structured j → fuzzyJson loads (text ts) = .ok j) ∧
    (∀ c j, IsClosing c → fixJson (text (repair ts)) = .ok (text (repair ts) ++ c) → loads (text (repair ts)) = none →
      loads (text (repair ts) ++ c) = some j → Structured j → fuzzyJson loads (text ts) = .ok j) := by
  have hb : (text ts).all isSpace ≠ true := by
    intro hall
    obtain ⟨t, ht, hw⟩ := hne
    obtain ⟨c, r, hd, hnw, _⟩ := head_nonspace t (h.good t ht) hw
    have hc : c ∈ text ts := List.mem_flatMap.2 ⟨t, ht, by rw [hd]; simp⟩
    exact hnw ((isSpace_iff c).1 (List.all_eq_true.1 hall c hc))
  have hv : ∀ j : J α, Structured j → validate j = .ok j := by
    intro j hj
    rcases validate_cases j with ⟨_, h2⟩ | ⟨h1, _⟩
    · exact h2
    · exact absurd hj h1
  constructor
  · intro j hj hs
    simp only [fuzzyJson]
    rw [if_neg hb, hl]
    simp only [clean_text ts h, hj]
    exact hv j hs
  · intro c j hc hf hn hj hs
    simp only [fuzzyJson]
    rw [if_neg hb, hl]
    simp only [clean_text ts h, hn, third, hf, hj]
    exact hv j hs

/-- The contents of a string token. -/
def Tok.content : Tok → Option Str
  | .str _ s => some s
  | _ => none

/-- The contents of the strings. -/
def strings (ts : List Tok) : List Str := ts.filterMap Tok.content

theorem strings_norm (ts : List Tok) : strings (ts.map Tok.norm) = strings ts := by
  unfold strings
  rw [List.filterMap_map]
  congr 1
  funext t
  cases t <;> rfl

theorem strings_noTrailing (b : Bool) (ts : List Tok) : strings (noTrailing b ts) = strings ts := by
  induction ts generalizing b with
  | nil => cases b <;> rfl
  | cons u ts ih =>
    cases u with
    | comma =>
      have e : noTrailing b (.comma :: ts) = if closesNext ts then noTrailing true ts else .comma :: noTrailing false ts := by
        cases b <;> rfl
      rw [e]
      split
      · exact ih true
      · exact ih false
    | str q s =>
      have : strings (.str q s :: noTrailing false ts) = strings (.str q s :: ts) := by
        have := ih false
        unfold strings at this ⊢
        rw [List.filterMap_cons, List.filterMap_cons, this]
      cases b <;> exact this
    | _ => cases b <;> first | exact ih true | exact ih false

theorem strings_quoteBare (n : Nat) : ∀ ts : List Tok, (strings ts).Sublist (strings (quoteBare n ts)) ∧
    ∀ s ∈ strings (quoteBare n ts), s ∈ strings ts ∨ .bare s ∈ ts := by
  induction n with
  | zero => intro ts; exact ⟨List.Sublist.refl _, fun s h => Or.inl h⟩
  | succ n ih =>
    intro ts
    cases ts with
    | nil => exact ⟨List.Sublist.refl _, fun s h => Or.inl h⟩
    | cons t ts =>
      obtain ⟨i1, i2⟩ := ih ts
      have plain : (strings (t :: ts)).Sublist (strings (t :: quoteBare n ts)) ∧
          ∀ s ∈ strings (t :: quoteBare n ts), s ∈ strings (t :: ts) ∨ .bare s ∈ t :: ts := by
        cases hc : t.content with
        | none =>
          have e : ∀ l, strings (t :: l) = strings l := fun l => by unfold strings; rw [List.filterMap_cons, hc]
          rw [e, e]
          refine ⟨i1, fun s hs => ?_⟩
          rcases i2 s hs with h | h
          · exact Or.inl h
          · exact Or.inr (by simp [h])
        | some c =>
          have e : ∀ l, strings (t :: l) = c :: strings l := fun l => by unfold strings; rw [List.filterMap_cons, hc]
          rw [e, e]
          refine ⟨i1.cons_cons c, fun s hs => ?_⟩
          rcases List.mem_cons.1 hs with h | h
          · exact Or.inl (by rw [h]; simp)
          · rcases i2 s h with h | h
            · exact Or.inl (by simp [h])
            · exact Or.inr (by simp [h])
      rw [quoteBare]
      split
      · next htr =>
        split
        · next k r hk =>
          obtain ⟨_, ⟨pre, e⟩, hm⟩ := keyAt_suffix ts k r hk
          have ht : t.content = none := by cases t <;> first | rfl | cases htr
          have e1 : ∀ l, strings (t :: l) = strings l := fun l => by unfold strings; rw [List.filterMap_cons, ht]
          have e2 : strings (Tok.str true k :: .colon :: quoteBare n r) = k :: strings (quoteBare n r) := rfl
          obtain ⟨j1, j2⟩ := ih r
          have e3 : strings ts = strings r := by
            unfold keyAt at hk
            have sk : ∀ l : List Tok, strings (skip l) = strings l := by
              intro l
              induction l with
              | nil => rfl
              | cons u l ih =>
                cases u with
                | ws w => exact ih
                | _ => rfl
            split at hk
            · next k' r' hr =>
              split at hk
              · next r'' hr'' =>
                simp only [Option.some.injEq, Prod.mk.injEq] at hk
                rw [← sk ts, hr]
                show strings r' = _
                rw [← sk r', hr'', ← hk.2]
                rfl
              · cases hk
            · cases hk
          rw [e1, e1, e2, e3]
          refine ⟨j1.cons k, fun s hs => ?_⟩
          rcases List.mem_cons.1 hs with h | h
          · exact Or.inr (by rw [h]; simp [hm])
          · rcases j2 s h with h | h
            · exact Or.inl h
            · exact Or.inr (by rw [e]; simp [h])
        · exact plain
      · exact plain

theorem strings_trim (ts : List Tok) : strings (trim ts) = strings ts := by
  have sk : ∀ l : List Tok, strings (skip l) = strings l := by
    intro l
    induction l with
    | nil => rfl
    | cons u l ih =>
      cases u with
      | ws w => exact ih
      | _ => rfl
  have rv : ∀ l : List Tok, strings l.reverse = (strings l).reverse := fun l => by simp [strings]
  unfold trim
  rw [rv, sk, rv, sk, List.reverse_reverse]

/-- **C126** (partial: texts as in `Tokenised`), **C217**: the contents of all strings are kept, in order; the only other strings are the
bare keys. -/
theorem C126_contents_partial (ts : List Tok) (h : Tokenised ts) :
    clean (text ts) = text (repair ts) ∧ (strings ts).Sublist (strings (repair ts)) ∧
    ∀ s ∈ strings (repair ts), s ∈ strings ts ∨ .bare s ∈ ts := by
  refine ⟨clean_text ts h, ?_⟩
  unfold repair
  rw [strings_trim]
  have hq := strings_quoteBare (noTrailing false (ts.map Tok.norm)).length (noTrailing false (ts.map Tok.norm))
  rw [strings_noTrailing, strings_norm] at hq
  refine ⟨hq.1, fun s hs => ?_⟩
  rcases hq.2 s hs with h | h
  · exact Or.inl h
  · obtain ⟨u, hu, e⟩ := List.mem_map.1 (noTrailing_mem false _ _ h)
    cases u <;> cases e
    exact Or.inr hu

/-- The full claim: bare keys get quotes.  Without white space a key reaches up to the last colon: `{a:1,b:2}` is read as an object with
the one key `a:1,b`. -/
theorem C217_compact_violation (loads : Str → Option (J α)) (j : J α) (hd : Structured j)
    (h1 : loads "{a:1,b:2}".toList = none) (h2 : loads "{\"a:1,b\":2}".toList = some j) :
    fuzzyJson loads "{a:1,b:2}".toList = .ok j := by
  have hc : clean "{a:1,b:2}".toList = "{\"a:1,b\":2}".toList := by decide
  have hb : ("{a:1,b:2}".toList).all isSpace ≠ true := by decide
  simp only [fuzzyJson]
  rw [if_neg hb, h1]
  simp only [hc, h2]
  rcases validate_cases j with ⟨_, h⟩ | ⟨h, _⟩
  · exact h
  · exact absurd hd h

/-- In a list of objects only the first may have a bare first key: the brace of the second becomes part of a string. -/
theorem C217_list_violation : clean "[{a: 1}, {b: 2}]".toList = "[{\"a\": 1},\"{b\": 2}]".toList := by decide

/-! ## Non-vacuity: the first example of the documentation -/

/-- `{ name: 'GPT, 4', tags: ['a', 'b',], config: { t: 0.7, max : 4 } , `, with line breaks and without the last bracket. -/
def demoToks : List Tok :=
  [.ws "\n".toList, .opening false, .ws "\n  ".toList, .bare "name".toList, .colon, .ws [' '], .str false "GPT, 4".toList, .comma,
   .ws "\n  ".toList, .bare "tags".toList, .colon, .ws [' '], .opening true, .str false "a".toList, .comma, .ws [' '],
   .str true "b".toList, .comma, .closing true, .comma, .ws "\n  ".toList, .str true "config".toList, .colon, .opening false,
   .ws [' '], .bare "t".toList, .colon, .ws [' '], .bare "0.7".toList, .comma, .ws [' '], .bare "max".toList, .ws [' '], .colon,
   .bare "4".toList, .ws [' '], .closing false, .ws ['\n']]

example : text demoToks = "\n{\n  name: 'GPT, 4',\n  tags: ['a', \"b\",],\n  \"config\":{ t: 0.7, max :4 }\n".toList := by decide

example : text (repair demoToks) = "{\"name\": \"GPT, 4\",\"tags\": [\"a\", \"b\"], \"config\":{\"t\": 0.7,\"max\":4 }".toList := by
  decide +kernel

/-! A checker for the domain, used for the example. -/

def pairs {β : Type} (p : β → β → Bool) : List β → Bool
  | a :: b :: r => p a b && pairs p (b :: r)
  | _ => true

theorem pairs_spec {β : Type} (p : β → β → Bool) (pre : List β) (a b : β) (post : List β) (h : pairs p (pre ++ a :: b :: post) = true) :
    p a b = true := by
  induction pre with
  | nil => simp [pairs] at h; exact h.1
  | cons c pre ih =>
    apply ih
    cases pre with
    | nil => simp [pairs] at h; simp [pairs, h]
    | cons d pre => simp only [List.cons_append, pairs, Bool.and_eq_true] at h; exact h.2

def contentB (s : Str) : Bool :=
  s.all (fun c => !decide (c = '\'') && !decide (c = '"') && (!isSpace c || decide (c = ' '))) &&
  pairs (fun a b => !(decide (a = ' ') && decide (b = ' ')) && !(decide (a = ',') && (decide (b = '}') || decide (b = ']')))) s &&
  pairs (fun a b => !(decide (a = ' ') && (decide (b = '}') || decide (b = ']')))) s &&
  (s.all (fun c => !decide (c = ':')) || s.all (fun c => !decide (c = ',') && !decide (c = '{')))

theorem contentB_spec (s : Str) (h : contentB s = true) : Content s := by
  unfold contentB at h
  simp only [Bool.and_eq_true] at h
  obtain ⟨⟨⟨h1, h2⟩, h3⟩, h4⟩ := h
  rw [List.all_eq_true] at h1
  refine ⟨⟨fun hm => ?_, fun hm => ?_⟩, fun c hc hw => ?_, ?_, ?_, ?_, ?_⟩
  · have := h1 _ hm; simp at this
  · have := h1 _ hm; simp at this
  · have := h1 c hc
    simp [white_true c hw] at this
    exact this.2
  · intro pre post e
    rw [e] at h2
    have := pairs_spec _ pre _ _ post h2
    simp at this
  · intro pre c post e
    rw [e] at h2
    have := pairs_spec _ pre _ _ post h2
    simp at this
    exact this
  · intro pre c post e
    have e2 : s = (pre ++ [',']) ++ ' ' :: c :: post := by rw [e]; simp
    rw [e2] at h3
    have := pairs_spec _ (pre ++ [',']) _ _ post h3
    simp at this
    exact this
  · rw [Bool.or_eq_true] at h4
    rcases h4 with h | h
    · rw [List.all_eq_true] at h
      exact Or.inl (fun hm => by have := h _ hm; simp at this)
    · rw [List.all_eq_true] at h
      exact Or.inr ⟨fun hm => (by have := h _ hm; simp at this), fun hm => (by have := h _ hm; simp at this)⟩

def Tok.goodB : Tok → Bool
  | .str _ s => contentB s
  | .bare s => !s.isEmpty && s.all (fun c => !isSpace c && !(['\'', '"', '[', ']', '{', '}', ',', ':'].contains c))
  | .ws s => !s.isEmpty && s.all isSpace
  | _ => true

theorem goodB_spec (t : Tok) (h : t.goodB = true) : t.Good := by
  cases t with
  | str b s => exact contentB_spec s h
  | bare s =>
    unfold Tok.goodB at h
    simp only [Bool.and_eq_true, List.all_eq_true] at h
    refine ⟨fun e => (by rw [e] at h; simp at h), fun c hc => ?_⟩
    have := h.2 c hc
    simp only [List.contains_cons, Bool.and_eq_true, Bool.not_eq_true', Bool.or_eq_false_iff, beq_eq_false_iff_ne] at this
    obtain ⟨a, b1, b2, b3, b4, b5, b6, b7, b8, _⟩ := this
    exact ⟨fun hw => (by rw [white_true c hw] at a; cases a), b1, b2, b3, b4, b5, b6, b7, b8⟩
  | ws s =>
    unfold Tok.goodB at h
    simp only [Bool.and_eq_true, List.all_eq_true] at h
    exact ⟨fun e => (by rw [e] at h; simp at h), fun c hc => (isSpace_iff c).1 (h.2 c hc)⟩
  | _ => trivial

def startsB (ts : List Tok) : Bool := (skip ts).head? == some .colon

theorem startsB_iff (ts : List Tok) : startsB ts = true ↔ startsColon ts := by
  unfold startsB startsColon
  rw [beq_iff_eq]
  cases skip ts with
  | nil => exact ⟨fun h => (by cases h), fun ⟨r, h⟩ => (by cases h)⟩
  | cons t r => exact ⟨fun h => ⟨r, by cases h; rfl⟩, fun ⟨q, h⟩ => by cases h; rfl⟩

def Tok.isBare : Tok → Bool
  | .bare _ => true
  | _ => false

def keyOkB (ts : List Tok) : Bool :=
  (!((skip ts).takeWhile Tok.solid).contains .colon && !startsB ((skip ts).dropWhile Tok.solid)) ||
  ((((skip ts).takeWhile Tok.solid).head?.any Tok.isBare && ((skip ts).takeWhile Tok.solid).tail == [.colon]) &&
    !startsB ((skip ts).dropWhile Tok.solid)) ||
  ((((skip ts).takeWhile Tok.solid).head?.any Tok.isBare && ((skip ts).takeWhile Tok.solid).tail == []) &&
    startsB ((skip ts).dropWhile Tok.solid))

theorem bare_head (l : List Tok) (r : List Tok) (h : l.head?.any Tok.isBare = true) (h2 : l.tail = r) : ∃ k, l = .bare k :: r := by
  cases l with
  | nil => cases h
  | cons t l =>
    cases t with
    | bare k => exact ⟨k, by simp at h2; rw [h2]⟩
    | _ => cases h

theorem keyOkB_spec (ts : List Tok) (h : keyOkB ts = true) : KeyOk ts := by
  unfold keyOkB at h
  simp only [Bool.or_eq_true, Bool.and_eq_true, Bool.not_eq_true', beq_iff_eq] at h
  unfold KeyOk
  rcases h with (⟨h1, h2⟩ | ⟨⟨h1, h2⟩, h3⟩) | ⟨⟨h1, h2⟩, h3⟩
  · refine Or.inl ⟨fun hm => ?_, fun hs => ?_⟩
    · rw [List.contains_iff_mem.2 hm] at h1; cases h1
    · rw [(startsB_iff _).2 hs] at h2; cases h2
  · obtain ⟨k, hk⟩ := bare_head _ _ h1 h2
    exact Or.inr (Or.inl ⟨k, hk, fun hs => by rw [(startsB_iff _).2 hs] at h3; cases h3⟩)
  · obtain ⟨k, hk⟩ := bare_head _ _ h1 h2
    exact Or.inr (Or.inr ⟨k, hk, (startsB_iff _).1 h3⟩)

def keysB : List Tok → Bool
  | [] => true
  | t :: r => (!t.trigger || keyOkB r) && keysB r

theorem keysB_spec (pre : List Tok) (t : Tok) (post : List Tok) (h : keysB (pre ++ t :: post) = true) (ht : t.trigger = true) : KeyOk post := by
  induction pre with
  | nil =>
    rw [List.nil_append, keysB, ht, Bool.and_eq_true] at h
    exact keyOkB_spec post (by simpa using h.1)
  | cons u pre ih =>
    rw [List.cons_append, keysB, Bool.and_eq_true] at h
    exact ih h.2

def tokenisedB (ts : List Tok) : Bool :=
  ts.all Tok.goodB && pairs (fun a b => !(a.isWs && b.isWs)) ts && keysB (noTrailing false (ts.map Tok.norm))

theorem tokenisedB_spec (ts : List Tok) (h : tokenisedB ts = true) : Tokenised ts := by
  unfold tokenisedB at h
  simp only [Bool.and_eq_true] at h
  obtain ⟨⟨h1, h2⟩, h3⟩ := h
  refine ⟨fun t ht => goodB_spec t (List.all_eq_true.1 h1 t ht), ?_, ?_⟩
  · intro pre w w' post e
    rw [e] at h2
    have := pairs_spec _ pre _ _ post h2
    simp [Tok.isWs] at this
  · intro pre t post e ht
    rw [e] at h3
    exact keysB_spec pre t post h3 ht

example : Tokenised demoToks := tokenisedB_spec _ (by decide +kernel)

end Verif.FuzzyJson
