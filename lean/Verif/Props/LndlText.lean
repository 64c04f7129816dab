import Verif.Lemmas.LexText
import Verif.Props.Parser

/-!
# LNDL documents as texts: C138

A grammar of well-formed documents, written in terms of characters only, and the theorem that lexing and parsing such a document gives back exactly its declarations and its output block.
-/

set_option linter.unusedSectionVars false
set_option linter.unusedSimpArgs false
set_option linter.unusedVariables false

namespace Verif.Parser

open Verif.Lexer

/-! ### The grammar -/

/-- References between the brackets: identifiers separated by commas (a trailing comma is allowed), white space and newlines anywhere. -/
inductive RefsText (cc : CharClass) : List Str → Str → Prop where
  | nil (g : Str) : IsGap g → RefsText cc [] g
  | last (g h x : Str) : IsGap g → IsIdent cc x → IsGap h → RefsText cc [x] (g ++ (x ++ h))
  | cons (g h x : Str) (rs : List Str) (t : Str) : IsGap g → IsIdent cc x → IsGap h → RefsText cc rs t → RefsText cc (x :: rs) (g ++ (x ++ (h ++ ',' :: t)))

/-- A value. -/
inductive ValText (cc : CharClass) (env : Env) : OutVal → Str → Prop where
  | refs (rs : List Str) (t : Str) : RefsText cc rs t → ValText cc env (.refs rs) ('[' :: (t ++ [']']))
  | str (q : Char) (s : Str) : q = '"' ∨ q = '\'' → ValText cc env (.str s) (literal q s)
  | num (x : Str) : IsNum cc x → env.numOk x = true → ValText cc env (.num x) x
  | tru (x : Str) : IsIdent cc x → x.map Char.toLower = "true".toList → ValText cc env (.bool true) x
  | fls (x : Str) : IsIdent cc x → x.map Char.toLower = "false".toList → ValText cc env (.bool false) x
  | name (x : Str) : IsIdent cc x → x.map Char.toLower ≠ "true".toList → x.map Char.toLower ≠ "false".toList → ValText cc env (.refs [x]) x

/-- A field `name: value`. -/
inductive FieldText (cc : CharClass) (env : Env) : Str × OutVal → Str → Prop where
  | mk (g1 f g2 g3 : Str) (v : OutVal) (t g4 : Str) : IsGap g1 → IsIdent cc f → IsGap g2 → IsGap g3 → ValText cc env v t → IsGap g4 →
      FieldText cc env (f, v) (g1 ++ (f ++ (g2 ++ ':' :: (g3 ++ (t ++ g4)))))

/-- The fields of an output block, separated by commas (a trailing comma is allowed). -/
inductive FieldsText (cc : CharClass) (env : Env) : List (Str × OutVal) → Str → Prop where
  | nil (g : Str) : IsGap g → FieldsText cc env [] g
  | last (fv : Str × OutVal) (t : Str) : FieldText cc env fv t → FieldsText cc env [fv] t
  | cons (fv : Str × OutVal) (t : Str) (fs : List (Str × OutVal)) (u : Str) : FieldText cc env fv t → FieldsText cc env fs u → FieldsText cc env (fv :: fs) (t ++ ',' :: u)

/-- Blanks inside a tag: spaces, tabs, carriage returns. -/
def IsBlank (w : Str) : Prop := ∀ c ∈ w, c = ' ' ∨ c = '\t' ∨ c = '\r'

/-- The names in a tag, with `w` between `Model.field` and the alias. -/
def headerText (w : Str) : Header → Str
  | .raw a => a
  | .named m f => m ++ '.' :: f
  | .aliased m f a => m ++ '.' :: f ++ w ++ a

/-- The names of a header. -/
def headerNames : Header → List Str
  | .raw a => [a]
  | .named m f => [m, f]
  | .aliased m f a => [m, f, a]

/-- A declaration, with the prose before it: `before <lvar w0 names w2> lead body trail </lvar>`. -/
structure DeclText where
  before : Str
  act : Bool
  header : Header
  w0 : Str
  w1 : Str
  w2 : Str
  lead : Str
  body : Str
  trail : Str

/-- `<lvar`, `<lact`. -/
def opening (act : Bool) : Str := if act then "<lact".toList else "<lvar".toList

/-- `</lvar>`, `</lact>`. -/
def closing (act : Bool) : Str := if act then "</lact>".toList else "</lvar>".toList

/-- The text between the tags. -/
def DeclText.content (d : DeclText) : Str := d.lead ++ (d.body ++ d.trail)

/-- The text of a declaration and of the prose before it. -/
def DeclText.text (d : DeclText) : Str :=
  d.before ++ (opening d.act ++ (d.w0 ++ (headerText d.w1 d.header ++ (d.w2 ++ '>' :: (d.content ++ closing d.act)))))

/-- The declaration is well-formed: names are identifiers, separated by white space; prose and content contain no LNDL keyword; `body` is the content without surrounding white space. -/
structure DeclText.Ok (cc : CharClass) (env : Env) (d : DeclText) : Prop where
  before : Plain d.before
  names : ∀ x ∈ headerNames d.header, IsIdent cc x
  w0 : IsGap d.w0 ∧ d.w0 ≠ []
  w1 : IsBlank d.w1 ∧ d.w1 ≠ []
  w2 : IsBlank d.w2
  content : Plain d.content
  lead : ∀ c ∈ d.lead, env.isSpace c = true
  trail : ∀ c ∈ d.trail, env.isSpace c = true
  bodyHead : ∀ c, d.body.head? = some c → env.isSpace c = false
  bodyLast : ∀ c, d.body.getLast? = some c → env.isSpace c = false

/-- A document: declarations with prose in between, more prose, and perhaps an output block (its fields, their text, and the text after it). -/
structure DocText where
  decls : List DeclText
  last : Str
  out : Option (List (Str × OutVal) × Str × Str)

/-- The text of the output block and of all that follows it. -/
def outText : Option (List (Str × OutVal) × Str × Str) → Str
  | none => []
  | some (_, t, tail) => "OUT{".toList ++ (t ++ '}' :: tail)

/-- The text of a document. -/
def DocText.text (d : DocText) : Str := d.decls.flatMap DeclText.text ++ (d.last ++ outText d.out)

/-- The document is well-formed.  What follows the output block is arbitrary; `OUT{` is not glued to a preceding word; all names by which declarations are referenced are distinct. -/
structure DocText.Ok (cc : CharClass) (env : Env) (d : DocText) : Prop where
  decls : ∀ x ∈ d.decls, x.Ok cc env
  last : Plain d.last
  out : ∀ fs t tail, d.out = some (fs, t, tail) → FieldsText cc env fs t ∧ ∀ c, d.last.getLast? = some c → isIdChar cc c = false
  names : (d.decls.map (fun x => refName x.header)).Nodup

/-- What is used of white space: blanks and newline are white space; identifier characters, `.` and `>` are not. -/
structure SpaceOk (cc : CharClass) (env : Env) : Prop where
  gap : ∀ c, c = ' ' ∨ c = '\t' ∨ c = '\r' ∨ c = '\n' → env.isSpace c = true
  ident : ∀ c, isIdChar cc c = true → env.isSpace c = false
  dot : env.isSpace '.' = false
  gt : env.isSpace '>' = false

/-! ### Lexing of output blocks -/

/-- The tokens of `t`, inside an output block, satisfy `P`, and lexing goes on with what follows (of which `S` is required). -/
def Lex (cc : CharClass) (S : Str → Prop) (P : List Token → Prop) (t : Str) : Prop :=
  ∀ rest, S rest → ∃ ks, K cc true (t ++ rest) = ks ++ K cc true rest ∧ ∀ ts : List Token, ts.map kv = ks → P ts

/-- Anything may follow. -/
def Any (_ : Str) : Prop := True

theorem map_kv_append {ts : List Token} {a b : List (Kind × Str)} (h : ts.map kv = a ++ b) : ∃ x y, ts = x ++ y ∧ x.map kv = a ∧ y.map kv = b :=
  List.map_eq_append_iff.1 h

theorem map_kv_cons {ts : List Token} {k : Kind} {v : Str} {b : List (Kind × Str)} (h : ts.map kv = (k, v) :: b) :
    ∃ x y, ts = x :: y ∧ x.kind = k ∧ x.value = v ∧ y.map kv = b := by
  obtain ⟨x, y, h1, h2, h3⟩ := List.map_eq_cons_iff.1 h
  refine ⟨x, y, h1, ?_, ?_, h3⟩
  · exact congrArg Prod.fst h2
  · exact congrArg Prod.snd h2

theorem Lex.gap {cc : CharClass} (ok : cc.Ok) {g : Str} (hg : IsGap g) : Lex cc Any Newlines g := by
  intro rest _
  obtain ⟨n, h1, h2⟩ := K_gap ok true hg rest
  refine ⟨n, h2, ?_⟩
  intro ts hts t ht
  have : kv t ∈ n := by rw [← hts]; exact List.mem_map_of_mem ht
  exact h1 _ this

theorem lex_one {ts : List Token} {k : Kind} {v : Str} (h : ts.map kv = [(k, v)]) : ∃ t, ts = [t] ∧ t.kind = k ∧ t.value = v := by
  obtain ⟨t, y, rfl, h1, h2, h3⟩ := map_kv_cons h
  rw [List.map_eq_nil_iff] at h3
  subst h3
  exact ⟨t, rfl, h1, h2⟩

theorem Lex.ident {cc : CharClass} (ok : cc.Ok) (hl : Letters cc) {x : Str} (hx : IsIdent cc x) :
    Lex cc (Stop cc) (fun ts => ∃ t, ts = [t] ∧ t.kind = .ident ∧ t.value = x) x := by
  intro rest hr
  exact ⟨[(.ident, x)], K_ident ok hl true hx rest (fun c r e => ⟨(hr c r e).1, (hr c r e).2.2⟩), fun ts hts => lex_one hts⟩

/-- Two texts after each other. -/
theorem Lex.append {cc : CharClass} {S S' : Str → Prop} {P Q R : List Token → Prop} {t u : Str} (ht : Lex cc S P t) (hu : Lex cc S' Q u)
    (hs : ∀ rest, S' rest → S (u ++ rest)) (h : ∀ a b, P a → Q b → R (a ++ b)) : Lex cc S' R (t ++ u) := by
  intro rest hr
  obtain ⟨k1, e1, p1⟩ := ht (u ++ rest) (hs rest hr)
  obtain ⟨k2, e2, p2⟩ := hu rest hr
  refine ⟨k1 ++ k2, by rw [List.append_assoc, e1, e2, List.append_assoc], ?_⟩
  intro ts hts
  obtain ⟨x, y, rfl, hx, hy⟩ := map_kv_append hts
  exact h x y (p1 x hx) (p2 y hy)

/-- A punctuation character, then a text. -/
theorem Lex.punct {cc : CharClass} (ok : cc.Ok) {S : Str → Prop} {Q R : List Token → Prop} {c : Char} {k : Kind} (hk : punct c = some k)
    (hc : c ∈ ['.', ',', ':', '[', ']', '>']) {u : Str} (hu : Lex cc S Q u) (h : ∀ t b, t.kind = k → Q b → R (t :: b)) : Lex cc S R (c :: u) := by
  intro rest hr
  obtain ⟨k2, e2, p2⟩ := hu rest hr
  have hne : c ≠ '}' := by rintro rfl; revert hc; decide
  refine ⟨(k, [c]) :: k2, ?_, ?_⟩
  · rw [List.cons_append, K_punct ok true hk (by simp only [List.mem_cons, List.not_mem_nil, or_false] at hc ⊢; grind), if_neg hne, e2]; rfl
  · intro ts hts
    obtain ⟨t, y, rfl, h1, _, h3⟩ := map_kv_cons hts
    exact h t y h1 (p2 y h3)

theorem Lex.nil (cc : CharClass) : Lex cc Any (fun ts => ts = []) [] := by
  intro rest _
  exact ⟨[], rfl, fun ts h => List.map_eq_nil_iff.1 h⟩

theorem Lex.mono {cc : CharClass} {S S' : Str → Prop} {P Q : List Token → Prop} {t : Str} (h : Lex cc S P t) (hs : ∀ r, S' r → S r) (hpq : ∀ ts, P ts → Q ts) : Lex cc S' Q t := by
  intro rest hr
  obtain ⟨ks, e, p⟩ := h rest (hs rest hr)
  exact ⟨ks, e, fun ts hts => hpq ts (p ts hts)⟩

/-- A gap, then a text. -/
theorem Lex.gap_append {cc : CharClass} (ok : cc.Ok) {S : Str → Prop} {Q R : List Token → Prop} {g u : Str} (hg : IsGap g) (hu : Lex cc S Q u)
    (h : ∀ a b, Newlines a → Q b → R (a ++ b)) : Lex cc S R (g ++ u) :=
  Lex.append (Lex.gap ok hg) hu (fun _ _ => trivial) h

theorem lex_refs {cc : CharClass} (ok : cc.Ok) (hl : Letters cc) {rs : List Str} {t : Str} (h : RefsText cc rs t) : Lex cc (Stop cc) (RefToks rs) t := by
  induction h with
  | nil g hg => exact (Lex.gap ok hg).mono (fun _ _ => trivial) (fun ts h => RefToks.nil ts h)
  | last g h x hg hx hh =>
    refine Lex.gap_append ok (Q := fun ts => ∃ t m, ts = t :: m ∧ t.kind = .ident ∧ t.value = x ∧ Newlines m) hg ?_ ?_
    · refine Lex.append (Lex.ident ok hl hx) ((Lex.gap ok hh).mono (S' := Stop cc) (fun _ _ => trivial) (fun _ h => h)) (fun rest hr => Stop.gap ok hh hr) ?_
      rintro a b ⟨t, rfl, h1, h2⟩ hb
      exact ⟨t, b, rfl, h1, h2, hb⟩
    · rintro a b ha ⟨t, m, rfl, h1, rfl, hm⟩
      exact RefToks.last a m t ha h1 hm
  | cons g h x rs t hg hx hh hrs ih =>
    refine Lex.gap_append ok (Q := fun ts => ∃ t m c r, ts = t :: (m ++ c :: r) ∧ t.kind = .ident ∧ t.value = x ∧ Newlines m ∧ c.kind = .comma ∧ RefToks rs r) hg ?_ ?_
    · refine Lex.append (Lex.ident ok hl hx) (Lex.gap_append ok (Q := fun ts => ∃ c r, ts = c :: r ∧ c.kind = .comma ∧ RefToks rs r)
        (R := fun ts => ∃ m c r, ts = m ++ c :: r ∧ Newlines m ∧ c.kind = .comma ∧ RefToks rs r) hh
        (Lex.punct ok (k := .comma) rfl (by decide) ih ?_) ?_) ?_ ?_
      · intro c r hc hr; exact ⟨c, r, rfl, hc, hr⟩
      · rintro a b ha ⟨c, r, rfl, hc, hr⟩; exact ⟨a, c, r, rfl, ha, hc, hr⟩
      · intro rest hr
        rw [List.append_assoc, List.cons_append]
        exact Stop.gap ok hh (Stop.cons ok _ (by decide))
      · rintro a b ⟨t, rfl, h1, h2⟩ ⟨m, c, r, rfl, h3, h4, h5⟩
        exact ⟨t, m, c, r, rfl, h1, h2, h3, h4, h5⟩
    · rintro a b ha ⟨t, m, c, r, rfl, h1, rfl, h3, h4, h5⟩
      exact RefToks.cons a m t c rs r ha h1 h3 h4 h5

theorem lex_val {cc : CharClass} (ok : cc.Ok) (hl : Letters cc) {env : Env} {v : OutVal} {t : Str} (h : ValText cc env v t) : Lex cc (Stop cc) (ValToks env v) t := by
  cases h with
  | refs rs t hrs =>
    refine Lex.punct ok (k := .lbracket) rfl (by decide) (Q := fun ts => ∃ a r, ts = a ++ [r] ∧ RefToks rs a ∧ r.kind = .rbracket) ?_ ?_
    · refine Lex.append (lex_refs ok hl hrs) (Q := fun ts => ∃ r, ts = [r] ∧ r.kind = .rbracket)
        ((Lex.punct ok (k := .rbracket) rfl (by decide) (Lex.nil cc) ?_).mono (S' := Stop cc) (fun _ _ => trivial) (fun _ h => h)) ?_ ?_
      · rintro t b ht rfl; exact ⟨t, rfl, ht⟩
      · intro rest _; exact Stop.cons ok _ (by decide)
      · rintro a b ha ⟨r, rfl, hr⟩; exact ⟨a, r, rfl, ha, hr⟩
    · rintro l b hk ⟨a, r, rfl, ha, hr⟩
      exact ValToks.refs rs l r a hk ha hr
  | str q s hq =>
    intro rest hr
    refine ⟨[(.str, s)], K_str ok q hq s rest, ?_⟩
    intro ts hts
    obtain ⟨t, rfl, h1, rfl⟩ := lex_one hts
    exact ValToks.str t h1
  | num _ hx hn =>
    intro rest hr
    refine ⟨[(.num, t)], K_num ok hl hx rest (fun c r e => (hr c r e).2.1), ?_⟩
    intro ts hts
    obtain ⟨t, rfl, h1, rfl⟩ := lex_one hts
    exact ValToks.num t h1 hn
  | tru _ hx hv =>
    refine (Lex.ident ok hl hx).mono (fun _ h => h) ?_
    rintro ts ⟨t, rfl, h1, rfl⟩
    exact ValToks.tru t h1 hv
  | fls _ hx hv =>
    refine (Lex.ident ok hl hx).mono (fun _ h => h) ?_
    rintro ts ⟨t, rfl, h1, rfl⟩
    exact ValToks.fls t h1 hv
  | name _ hx hv hv' =>
    refine (Lex.ident ok hl hx).mono (fun _ h => h) ?_
    rintro ts ⟨t, rfl, h1, rfl⟩
    exact ValToks.name t h1 hv hv'

theorem lex_field {cc : CharClass} (ok : cc.Ok) (hl : Letters cc) {env : Env} {fv : Str × OutVal} {t : Str} (h : FieldText cc env fv t) :
    Lex cc (Stop cc) (FieldToks env fv) t := by
  cases h with
  | mk g1 f g2 g3 v t g4 h1 hf h2 h3 hv h4 =>
    have e1 : Lex cc (Stop cc) (fun ts => ∃ a m, ts = a ++ m ∧ ValToks env v a ∧ Newlines m) (t ++ g4) := by
      refine Lex.append (lex_val ok hl hv) ((Lex.gap ok h4).mono (S' := Stop cc) (fun _ _ => trivial) (fun _ h => h)) (fun rest hr => Stop.gap ok h4 hr) ?_
      intro a b ha hb; exact ⟨a, b, rfl, ha, hb⟩
    have e2 : Lex cc (Stop cc) (fun ts => ∃ b a m, ts = b ++ (a ++ m) ∧ Newlines b ∧ ValToks env v a ∧ Newlines m) (g3 ++ (t ++ g4)) := by
      refine Lex.gap_append ok h3 e1 ?_
      rintro b _ hb ⟨a, m, rfl, ha, hm⟩; exact ⟨b, a, m, rfl, hb, ha, hm⟩
    have e3 : Lex cc (Stop cc) (fun ts => ∃ c b a m, ts = c :: (b ++ (a ++ m)) ∧ c.kind = .colon ∧ Newlines b ∧ ValToks env v a ∧ Newlines m) (':' :: (g3 ++ (t ++ g4))) := by
      refine Lex.punct ok (k := .colon) rfl (by decide) e2 ?_
      rintro c _ hc ⟨b, a, m, rfl, h⟩; exact ⟨c, b, a, m, rfl, hc, h⟩
    have e4 : Lex cc (Stop cc) (fun ts => ∃ n c b a m, ts = n ++ c :: (b ++ (a ++ m)) ∧ Newlines n ∧ c.kind = .colon ∧ Newlines b ∧ ValToks env v a ∧ Newlines m)
        (g2 ++ ':' :: (g3 ++ (t ++ g4))) := by
      refine Lex.gap_append ok h2 e3 ?_
      rintro n _ hn ⟨c, b, a, m, rfl, h⟩; exact ⟨n, c, b, a, m, rfl, hn, h⟩
    have e5 : Lex cc (Stop cc) (fun ts => ∃ f' n c b a m, ts = f' :: (n ++ c :: (b ++ (a ++ m))) ∧ f'.kind = .ident ∧ f'.value = f ∧ Newlines n ∧ c.kind = .colon ∧ Newlines b ∧
        ValToks env v a ∧ Newlines m) (f ++ (g2 ++ ':' :: (g3 ++ (t ++ g4)))) := by
      refine Lex.append (Lex.ident ok hl hf) e4 ?_ ?_
      · intro rest _
        rw [List.append_assoc, List.cons_append]
        exact Stop.gap ok h2 (Stop.cons ok _ (by decide))
      · rintro _ _ ⟨f', rfl, hk, hv⟩ ⟨n, c, b, a, m, rfl, h⟩
        exact ⟨f', n, c, b, a, m, rfl, hk, hv, h⟩
    refine Lex.gap_append ok h1 e5 ?_
    rintro n _ hn ⟨f', n', c, b, a, m, rfl, hk, rfl, hn', hc, hb, ha, hm⟩
    exact FieldToks.mk n n' b m f' c v a hn hk hn' hc hb ha hm

theorem lex_fields {cc : CharClass} (ok : cc.Ok) (hl : Letters cc) {env : Env} {fs : List (Str × OutVal)} {t : Str} (h : FieldsText cc env fs t) :
    Lex cc (Stop cc) (FieldsToks env fs) t := by
  induction h with
  | nil g hg => exact (Lex.gap ok hg).mono (fun _ _ => trivial) (fun ts h => FieldsToks.nil ts h)
  | last fv t hf => exact (lex_field ok hl hf).mono (fun _ h => h) (fun ts h => FieldsToks.last fv ts h)
  | cons fv t fs u hf hfs ih =>
    refine Lex.append (lex_field ok hl hf) (Q := fun ts => ∃ c r, ts = c :: r ∧ c.kind = .comma ∧ FieldsToks env fs r)
      (Lex.punct ok (k := .comma) rfl (by decide) ih ?_) ?_ ?_
    · intro c r hc hr; exact ⟨c, r, rfl, hc, hr⟩
    · intro rest _; exact Stop.cons ok _ (by decide)
    · rintro a b ha ⟨c, r, rfl, hc, hr⟩
      exact FieldsToks.cons fv a c fs r ha hc hr

/-! ### Lexing of declarations -/

theorem IsBlank.ws {w : Str} (h : IsBlank w) : ∀ c ∈ w, isWs c = true := by
  intro c hc
  rcases h c hc with rfl | rfl | rfl <;> decide

/-- Follow condition of names outside of output blocks. -/
def NameStop (cc : CharClass) (rest : Str) : Prop := ∀ c r, rest = c :: r → isIdChar cc c = false ∧ c ≠ '{'

theorem NameStop.cons {cc : CharClass} (ok : cc.Ok) {c : Char} (r : Str) (h : c = ' ' ∨ c = '\t' ∨ c = '\r' ∨ c = '.' ∨ c = '>') : NameStop cc (c :: r) := by
  intro d r' e
  cases e
  rcases h with rfl | rfl | rfl | rfl | rfl <;> exact ⟨not_idChar ok (by decide), by decide⟩

theorem NameStop.blank {cc : CharClass} (ok : cc.Ok) {w rest : Str} (h : IsBlank w) (hr : NameStop cc rest) : NameStop cc (w ++ rest) := by
  cases w with
  | nil => exact hr
  | cons c w =>
    refine NameStop.cons ok _ ?_
    rcases h c List.mem_cons_self with h | h | h
    · exact Or.inl h
    · exact Or.inr (Or.inl h)
    · exact Or.inr (Or.inr (Or.inl h))

theorem K_header {cc : CharClass} (ok : cc.Ok) (hl : Letters cc) {h : Header} (hn : ∀ x ∈ headerNames h, IsIdent cc x) {w : Str} (hw : IsBlank w) (hw' : w ≠ []) (rest : Str)
    (hr : NameStop cc rest) : ∃ ks, K cc false (headerText w h ++ rest) = ks ++ K cc false rest ∧ ∀ ts : List Token, ts.map kv = ks → NameToks h ts := by
  cases h with
  | raw a =>
    refine ⟨[(.ident, a)], K_ident ok hl false (hn a (by simp [headerNames])) rest hr, ?_⟩
    intro ts hts
    obtain ⟨t, rfl, h1, rfl⟩ := lex_one hts
    exact NameToks.raw t h1
  | named m f =>
    refine ⟨[(.ident, m), (.dot, ['.']), (.ident, f)], ?_, ?_⟩
    · have e : headerText w (.named m f) ++ rest = m ++ '.' :: (f ++ rest) := by simp [headerText]
      rw [e, K_ident ok hl false (hn m (by simp [headerNames])) _ (NameStop.cons ok _ (by simp)), K_punct ok false (k := .dot) rfl (by decide), if_neg (by decide),
        K_ident ok hl false (hn f (by simp [headerNames])) _ hr]
      rfl
    · intro ts hts
      obtain ⟨t, y, rfl, h1, rfl, hts1⟩ := map_kv_cons hts
      obtain ⟨d, y, rfl, h2, _, hts2⟩ := map_kv_cons hts1
      obtain ⟨f, rfl, h3, rfl⟩ := lex_one hts2
      exact NameToks.named t d f h1 h2 h3
  | aliased m f a =>
    refine ⟨[(.ident, m), (.dot, ['.']), (.ident, f), (.ident, a)], ?_, ?_⟩
    · have e : headerText w (.aliased m f a) ++ rest = m ++ '.' :: (f ++ (w ++ (a ++ rest))) := by simp [headerText]
      have hs : NameStop cc (w ++ (a ++ rest)) := by
        cases w with
        | nil => exact absurd rfl hw'
        | cons c w =>
          refine NameStop.cons ok _ ?_
          rcases hw c List.mem_cons_self with h | h | h
          · exact Or.inl h
          · exact Or.inr (Or.inl h)
          · exact Or.inr (Or.inr (Or.inl h))
      rw [e, K_ident ok hl false (hn m (by simp [headerNames])) _ (NameStop.cons ok _ (by simp)), K_punct ok false (k := .dot) rfl (by decide), if_neg (by decide),
        K_ident ok hl false (hn f (by simp [headerNames])) _ hs, K_spaces ok false hw.ws, K_ident ok hl false (hn a (by simp [headerNames])) _ hr]
      rfl
    · intro ts hts
      obtain ⟨t, y, rfl, h1, rfl, hts1⟩ := map_kv_cons hts
      obtain ⟨d, y, rfl, h2, _, hts2⟩ := map_kv_cons hts1
      obtain ⟨f, y, rfl, h3, rfl, hts3⟩ := map_kv_cons hts2
      obtain ⟨a, rfl, h4, rfl⟩ := lex_one hts3
      exact NameToks.aliased t d f a h1 h2 h3 h4

theorem opening_eq (act : Bool) : opening act = openStr act := rfl
theorem closing_eq (act : Bool) : closing act = closeStr act := rfl

theorem bound_lt {cc : CharClass} (ok : cc.Ok) (u : Str) {rest : Str} (h : ∀ c r, rest = c :: r → c = '<') : Bound cc u rest := by
  intro c r e
  obtain rfl := h c r e
  refine ⟨by decide, ?_, Or.inl (not_idChar ok (by decide))⟩
  simp [isNumChar, not_digit ok (c := '<') (by decide)]

theorem opening_head (act : Bool) : ∃ r, opening act = '<' :: r := by cases act <;> exact ⟨_, rfl⟩
theorem closing_head (act : Bool) : ∃ r, closing act = '<' :: r := by cases act <;> exact ⟨_, rfl⟩

theorem head_lt_opening {act : Bool} {t : Str} : ∀ c r, opening act ++ t = c :: r → c = '<' := by
  intro c r e
  obtain ⟨x, hx⟩ := opening_head act
  rw [hx] at e; cases e; rfl

theorem head_lt_closing {act : Bool} {t : Str} : ∀ c r, closing act ++ t = c :: r → c = '<' := by
  intro c r e
  obtain ⟨x, hx⟩ := closing_head act
  rw [hx] at e; cases e; rfl

theorem K_opening {cc : CharClass} (ok : cc.Ok) (act : Bool) (rest : Str) : K cc false (opening act ++ rest) = (openKind act, opening act) :: K cc false rest := by
  cases act
  · exact K_tag ok false (by simp [opening, closing, openKind, closeKind]) rest
  · exact K_tag ok false (by simp [opening, closing, openKind, closeKind]) rest

theorem K_closing {cc : CharClass} (ok : cc.Ok) (act : Bool) (rest : Str) : K cc false (closing act ++ rest) = (closeKind act, closing act) :: K cc false rest := by
  cases act
  · exact K_tag ok false (by simp [opening, closing, openKind, closeKind]) rest
  · exact K_tag ok false (by simp [opening, closing, openKind, closeKind]) rest

theorem DeclsToks.others {ds : List (Bool × Header)} {a ts : List Token} (ha : ∀ t ∈ a, PlainKind t.kind) (h : DeclsToks ds ts) : DeclsToks ds (a ++ ts) := by
  induction a with
  | nil => exact h
  | cons t a ih =>
    obtain ⟨h1, h2, h3, h4, h5, h6⟩ := ha t List.mem_cons_self
    exact DeclsToks.other t ds _ h1 h2 h5 h6 (ih (fun x hx => ha x (List.mem_cons_of_mem _ hx)))

theorem plain_toks {ts : List Token} {ks : List (Kind × Str)} (hk : ∀ x ∈ ks, PlainKind x.1) (h : ts.map kv = ks) : ∀ t ∈ ts, PlainKind t.kind := by
  intro t ht
  have : kv t ∈ ks := by rw [← h]; exact List.mem_map_of_mem ht
  exact hk _ this

theorem K_decl {cc : CharClass} (ok : cc.Ok) (hl : Letters cc) {env : Env} {d : DeclText} (hd : d.Ok cc env) (rest : Str) :
    ∃ ks, K cc false (d.text ++ rest) = ks ++ K cc false rest ∧
      ∀ ts : List Token, ts.map kv = ks → ∃ a b, ts = a ++ b ∧ (∀ t ∈ a, PlainKind t.kind) ∧ DeclToks d.act d.header b := by
  have e : d.text ++ rest = d.before ++ (opening d.act ++ (d.w0 ++ (headerText d.w1 d.header ++ (d.w2 ++ '>' :: (d.content ++ (closing d.act ++ rest)))))) := by
    simp [DeclText.text]
  have hq1 : Quiet d.before (opening d.act ++ (d.w0 ++ (headerText d.w1 d.header ++ (d.w2 ++ '>' :: (d.content ++ (closing d.act ++ rest)))))) :=
    hd.before.quiet (fun c r e => Or.inl (head_lt_opening c r e))
  obtain ⟨k1, p1, e1⟩ := K_plain ok hq1 (bound_lt ok _ head_lt_opening)
  obtain ⟨n, p2, e2⟩ := K_gap ok false hd.w0.1 (headerText d.w1 d.header ++ (d.w2 ++ '>' :: (d.content ++ (closing d.act ++ rest))))
  obtain ⟨k3, e3, p3⟩ := K_header ok hl hd.names hd.w1.1 hd.w1.2 (d.w2 ++ '>' :: (d.content ++ (closing d.act ++ rest)))
    (NameStop.blank ok hd.w2 (NameStop.cons ok _ (by simp)))
  have hq4 : Quiet d.content (closing d.act ++ rest) := hd.content.quiet (fun c r e => Or.inl (head_lt_closing c r e))
  obtain ⟨k4, p4, e4⟩ := K_plain ok hq4 (bound_lt ok _ head_lt_closing)
  refine ⟨k1 ++ ((openKind d.act, opening d.act) :: (n ++ (k3 ++ ((.gt, ['>']) :: (k4 ++ [(closeKind d.act, closing d.act)]))))), ?_, ?_⟩
  · rw [e, e1, K_opening ok, e2, e3, K_spaces ok false hd.w2.ws, K_punct ok false (k := .gt) rfl (by decide), if_neg (by decide), e4, K_closing ok]
    simp
  · intro ts hts
    obtain ⟨a, y, rfl, ha, hts⟩ := map_kv_append hts
    obtain ⟨o, y, rfl, ho, _, hts⟩ := map_kv_cons hts
    obtain ⟨m, y, rfl, hm, hts⟩ := map_kv_append hts
    obtain ⟨names, y, rfl, hnames, hts⟩ := map_kv_append hts
    obtain ⟨g, y, rfl, hg, _, hts⟩ := map_kv_cons hts
    obtain ⟨body, y, rfl, hbody, hts⟩ := map_kv_append hts
    obtain ⟨c, rfl, hc, _⟩ := lex_one hts
    refine ⟨a, _, rfl, plain_toks p1 ha, ?_⟩
    have := DeclToks.mk d.act d.header o g c m names body ho ?_ (p3 names hnames) hg ?_ hc
    · simpa using this
    · intro t ht
      have : kv t ∈ n := by rw [← hm]; exact List.mem_map_of_mem ht
      exact p2 _ this
    · intro t ht
      obtain ⟨h1, h2, h3, h4, h5, h6⟩ := plain_toks p4 hbody t ht
      refine ⟨?_, h6⟩
      cases d.act
      · exact h3
      · exact h4

/-- The declarations of a document, as the parser sees them. -/
def declHeaders (ds : List DeclText) : List (Bool × Header) := ds.map (fun d => (d.act, d.header))

theorem K_decls {cc : CharClass} (ok : cc.Ok) (hl : Letters cc) {env : Env} {ds : List DeclText} (hds : ∀ d ∈ ds, d.Ok cc env) {last rest : Str}
    (hq : Quiet last rest) (hb : Bound cc last rest) :
    ∃ ks, K cc false (ds.flatMap DeclText.text ++ (last ++ rest)) = ks ++ K cc false rest ∧ ∀ ts : List Token, ts.map kv = ks → DeclsToks (declHeaders ds) ts := by
  induction ds with
  | nil =>
    obtain ⟨k, p, e⟩ := K_plain ok hq hb
    refine ⟨k, e, ?_⟩
    intro ts hts
    have := DeclsToks.others (plain_toks p hts) DeclsToks.nil
    rw [List.append_nil] at this
    exact this
  | cons d ds ih =>
    obtain ⟨k1, e1, p1⟩ := K_decl ok hl (hds d List.mem_cons_self) (ds.flatMap DeclText.text ++ (last ++ rest))
    obtain ⟨k2, e2, p2⟩ := ih (fun x hx => hds x (List.mem_cons_of_mem _ hx))
    refine ⟨k1 ++ k2, by rw [List.flatMap_cons, List.append_assoc, e1, e2, List.append_assoc], ?_⟩
    intro ts hts
    obtain ⟨x, y, rfl, hx, hy⟩ := map_kv_append hts
    obtain ⟨a, b, rfl, ha, hb'⟩ := p1 x hx
    rw [List.append_assoc]
    exact DeclsToks.others ha (DeclsToks.decl d.act d.header b _ y hb' (p2 y hy))

/-! ### The content of each declaration -/

/-- `m` matches at no position inside `u`, when `rest` follows. -/
def NoM (m : Str → Option Str) (u rest : Str) : Prop := ∀ a b, u = a ++ b → b ≠ [] → m (b ++ rest) = none

theorem NoM.nil (m : Str → Option Str) (rest : Str) : NoM m [] rest := by
  intro a b e hb
  have := List.append_eq_nil_iff.1 e.symm
  exact absurd this.2 hb

theorem NoM.append {m : Str → Option Str} {u v rest : Str} (hu : NoM m u (v ++ rest)) (hv : NoM m v rest) : NoM m (u ++ v) rest := by
  intro a b e hb
  rcases List.append_eq_append_iff.1 e with ⟨x, h1, h2⟩ | ⟨x, h1, h2⟩
  · exact hv x b h2 hb
  · subst h2
    by_cases hx : x = []
    · subst hx
      exact hv [] v rfl (by simpa using hb)
    · rw [List.append_assoc]; exact hu a x h1 hx

theorem matchHere_none {env : Env} {opn close : Str} {ps : List Str} {t : Str} (h : ¬ opn <+: t) : matchHere env opn close ps t = none := by
  unfold matchHere strip?
  have : startsWith opn t = false := by
    rw [Bool.eq_false_iff]; intro hs; exact h (isPrefixOf_iff.1 hs)
  rw [this]; rfl

theorem NoM.noLt {env : Env} {act : Bool} {close : Str} {ps : List Str} {u rest : Str} (h : ∀ c ∈ u, c ≠ '<') : NoM (matchHere env (openStr act) close ps) u rest := by
  intro a b e hb
  apply matchHere_none
  cases b with
  | nil => exact absurd rfl hb
  | cons c b =>
    intro hp
    have hc : c ≠ '<' := h c (by rw [e]; simp)
    obtain ⟨x, hx⟩ := opening_head act
    rw [← opening_eq, hx, List.cons_append, List.cons_prefix_cons] at hp
    exact hc hp.1.symm

theorem opening_key (act : Bool) : openStr act ∈ keywords := by cases act <;> simp [openStr, keywords]
theorem closing_key (act : Bool) : closeStr act ∈ keywords := by cases act <;> simp [closeStr, keywords]

theorem NoM.quiet {env : Env} {act : Bool} {close : Str} {ps : List Str} {u rest : Str} (h : Quiet u rest) : NoM (matchHere env (openStr act) close ps) u rest := by
  intro a b e hb
  exact matchHere_none (h a b e hb _ (opening_key act))

theorem NoM.closeTag {env : Env} {act : Bool} {close : Str} {ps : List Str} (act' : Bool) (rest : Str) : NoM (matchHere env (openStr act) close ps) (closing act') rest := by
  have h : ∃ r, closing act' = ['<', '/'] ++ r ∧ ∀ c ∈ r, c ≠ '<' := by
    cases act'
    · exact ⟨"lvar>".toList, rfl, by decide⟩
    · exact ⟨"lact>".toList, rfl, by decide⟩
  obtain ⟨r, e, hr⟩ := h
  rw [e]
  refine NoM.append ?_ (NoM.noLt hr)
  have : (['<', '/'] : Str) = ['<'] ++ ['/'] := rfl
  rw [this]
  refine NoM.append ?_ (NoM.noLt (by decide))
  intro a b e' hb
  apply matchHere_none
  have hb' : b = ['<'] := by
    cases a with
    | nil => exact e'.symm
    | cons x a => simp at e'; exact absurd e'.2.2 hb
  subst hb'
  intro hp
  cases act <;> simp [openStr] at hp

/-- Words: no white space, no `>`. -/
def IsWord (env : Env) (p : Str) : Prop := p ≠ [] ∧ ∀ c ∈ p, env.isSpace c = false ∧ c ≠ '>'

/-- The pieces of a tag. -/
def flat (ws ps : List Str) : Str := (ws.zip ps).flatMap (fun x => x.1 ++ x.2)

theorem flat_head {env : Env} {ws ps : List Str} {w r : Str} (hws : ∀ x ∈ ws, Spaces env x ∧ x ≠ []) (hw : Spaces env w) :
    ∀ c t, flat ws ps ++ (w ++ '>' :: r) = c :: t → env.isSpace c = true ∨ c = '>' := by
  intro c t e
  cases ws with
  | nil =>
    cases w with
    | nil => simp [flat] at e; exact Or.inr e.1.symm
    | cons x w => simp [flat] at e; exact Or.inl (hw c (by rw [← e.1]; simp))
  | cons v ws =>
    cases ps with
    | nil =>
      cases w with
      | nil => simp [flat] at e; exact Or.inr e.1.symm
      | cons x w => simp [flat] at e; exact Or.inl (hw c (by rw [← e.1]; simp))
    | cons p ps =>
      obtain ⟨h1, h2⟩ := hws v (by simp)
      cases v with
      | nil => exact absurd rfl h2
      | cons x v => simp [flat] at e; exact Or.inl (h1 c (by rw [← e.1]; simp))

theorem strip?_some {p t r : Str} (h : strip? p t = some r) : t = p ++ r := by
  unfold strip? at h
  split at h
  · next hs =>
    obtain ⟨x, rfl⟩ := startsWith_iff.1 hs
    cases h; simp
  · cases h

/-- If the words `ps` match a tag with the words `ps'`, they are the same words. -/
theorem words_eq (env : Env) (hgt : env.isSpace '>' = false) (ps : List Str) : ∀ (ps' ws' : List Str) (w r t x : Str), (∀ p ∈ ps, IsWord env p) → (∀ p ∈ ps', IsWord env p) →
    ws'.length = ps'.length → (∀ v ∈ ws', Spaces env v ∧ v ≠ []) → Spaces env w →
    matchPieces env ps (flat ws' ps' ++ (w ++ '>' :: r)) = some t → strip? ['>'] (t.dropWhile env.isSpace) = some x → ps = ps' := by
  induction ps with
  | nil =>
    intro ps' ws' w r t x hps hps' hlen hws hw hm hx
    simp only [matchPieces, Option.some.injEq] at hm
    subst hm
    cases ps' with
    | nil => rfl
    | cons p' ps' =>
      cases ws' with
      | nil => simp at hlen
      | cons v ws' =>
        obtain ⟨hne, hp⟩ := hps' p' (by simp)
        obtain ⟨hv, _⟩ := hws v (by simp)
        cases p' with
        | nil => exact absurd rfl hne
        | cons c p' =>
          have hc := hp c (by simp)
          have e : flat (v :: ws') ((c :: p') :: ps') ++ (w ++ '>' :: r) = v ++ (c :: (p' ++ (flat ws' ps' ++ (w ++ '>' :: r)))) := by simp [flat]
          rw [e, dropWhile_spaces env v hv _ (by intro d q e; cases e; exact hc.1)] at hx
          have := strip?_some hx
          cases this
          exact absurd rfl hc.2
  | cons p ps ih =>
    intro ps' ws' w r t x hps hps' hlen hws hw hm hx
    obtain ⟨hpne, hp⟩ := hps p (by simp)
    have hps2 : ∀ q ∈ ps, IsWord env q := fun q hq => hps q (List.mem_cons_of_mem _ hq)
    cases ps' with
    | nil =>
      have hwn : ws' = [] := List.length_eq_zero_iff.1 hlen
      subst hwn
      simp only [flat, List.zip_nil_right, List.flatMap_nil, List.nil_append] at hm
      exfalso
      cases w with
      | nil =>
        simp only [List.nil_append, matchPieces] at hm
        rw [if_neg (by rw [hgt]; simp)] at hm; cases hm
      | cons y w =>
        have hy := hw y (by simp)
        have hw2 : Spaces env w := fun z hz => hw z (List.mem_cons_of_mem _ hz)
        simp only [List.cons_append, matchPieces] at hm
        rw [if_pos hy, dropWhile_spaces env w hw2 _ (by intro d q e; cases e; exact hgt), Option.bind_eq_some_iff] at hm
        obtain ⟨s, hs, _⟩ := hm
        have := strip?_some hs
        cases p with
        | nil => exact absurd rfl hpne
        | cons c p => cases this; exact absurd rfl (hp '>' (by simp)).2
    | cons p' ps' =>
      cases ws' with
      | nil => simp at hlen
      | cons v ws' =>
        obtain ⟨hne', hp'⟩ := hps' p' (by simp)
        obtain ⟨hv, hvne⟩ := hws v (by simp)
        have hws2 : ∀ v ∈ ws', Spaces env v ∧ v ≠ [] := fun u hu => hws u (List.mem_cons_of_mem _ hu)
        have hps2' : ∀ q ∈ ps', IsWord env q := fun q hq => hps' q (List.mem_cons_of_mem _ hq)
        cases v with
        | nil => exact absurd rfl hvne
        | cons y v =>
          have hy := hv y (by simp)
          have hv2 : Spaces env v := fun z hz => hv z (List.mem_cons_of_mem _ hz)
          have e : flat ((y :: v) :: ws') (p' :: ps') ++ (w ++ '>' :: r) = y :: (v ++ (p' ++ (flat ws' ps' ++ (w ++ '>' :: r)))) := by simp [flat]
          rw [e] at hm
          simp only [matchPieces] at hm
          rw [if_pos hy, dropWhile_spaces env v hv2 _ (by
            intro d q e
            cases p' with
            | nil => exact absurd rfl hne'
            | cons c p' => cases e; exact (hp' d (by simp)).1), Option.bind_eq_some_iff] at hm
          obtain ⟨s, hs, hm⟩ := hm
          have hs := strip?_some hs
          have hhead := flat_head (ps := ps') (r := r) hws2 hw
          rcases List.append_eq_append_iff.1 hs with ⟨z, h1, h2⟩ | ⟨z, h1, h2⟩
          · -- `p = p' ++ z`
            cases z with
            | nil =>
              rw [List.append_nil] at h1
              rw [List.nil_append] at h2
              subst h1
              rw [← h2] at hm
              rw [ih ps' ws' w r t x hps2 hps2' (by simpa using hlen) hws2 hw hm hx]
            | cons c z =>
              exfalso
              have hc := hp c (by rw [h1]; simp)
              rcases hhead c (z ++ s) h2 with h | h
              · rw [hc.1] at h; cases h
              · exact hc.2 h
          · -- `p' = p ++ z`
            cases z with
            | nil =>
              rw [List.append_nil] at h1
              rw [List.nil_append] at h2
              subst h1
              rw [h2] at hm
              rw [ih ps' ws' w r t x hps2 hps2' (by simpa using hlen) hws2 hw hm hx]
            | cons c z =>
              exfalso
              have hc := hp' c (by rw [h1]; simp)
              subst h2
              cases ps with
              | nil =>
                simp only [matchPieces, Option.some.injEq] at hm
                subst hm
                rw [List.cons_append, List.dropWhile_cons_of_neg (by rw [hc.1]; simp)] at hx
                have := strip?_some hx
                cases this
                exact hc.2 rfl
              | cons q ps =>
                rw [List.cons_append] at hm
                simp only [matchPieces] at hm
                rw [if_neg (by rw [hc.1]; simp)] at hm
                cases hm

theorem ident_word {cc : CharClass} (ok : cc.Ok) {env : Env} (sp : SpaceOk cc env) {x : Str} (hx : IsIdent cc x) : IsWord env x :=
  ⟨hx.ne_nil, fun c hc => ⟨sp.ident c (hx.chars ok c hc), idChar_ne ok (hx.chars ok c hc) (by decide)⟩⟩

theorem dotted_word {cc : CharClass} (ok : cc.Ok) {env : Env} (sp : SpaceOk cc env) {x y : Str} (hx : IsIdent cc x) (hy : IsIdent cc y) : IsWord env (x ++ '.' :: y) := by
  refine ⟨by simp, ?_⟩
  intro c hc
  rcases List.mem_append.1 hc with hc | hc
  · exact (ident_word ok sp hx).2 c hc
  · rcases List.mem_cons.1 hc with rfl | hc
    · exact ⟨sp.dot, by decide⟩
    · exact (ident_word ok sp hy).2 c hc

theorem pieces_word {cc : CharClass} (ok : cc.Ok) {env : Env} (sp : SpaceOk cc env) {h : Header} (hn : ∀ x ∈ headerNames h, IsIdent cc x) : ∀ p ∈ pieces h, IsWord env p := by
  intro p hp
  cases h with
  | raw a => simp [pieces] at hp; subst hp; exact ident_word ok sp (hn _ (by simp [headerNames]))
  | named m f => simp [pieces] at hp; subst hp; exact dotted_word ok sp (hn m (by simp [headerNames])) (hn f (by simp [headerNames]))
  | aliased m f a =>
    simp [pieces] at hp
    rcases hp with rfl | rfl
    · exact dotted_word ok sp (hn m (by simp [headerNames])) (hn f (by simp [headerNames]))
    · exact ident_word ok sp (hn _ (by simp [headerNames]))

theorem dot_split {cc : CharClass} (ok : cc.Ok) {m f m' f' : Str} (hm : IsIdent cc m) (hm' : IsIdent cc m') (h : m ++ '.' :: f = m' ++ '.' :: f') : m = m' ∧ f = f' := by
  have hd : ∀ {x : Str}, IsIdent cc x → '.' ∉ x := fun hx hc => idChar_ne ok (hx.chars ok _ hc) (by decide) rfl
  rcases List.append_eq_append_iff.1 h with ⟨z, h1, h2⟩ | ⟨z, h1, h2⟩
  · cases z with
    | nil => simp at h1 h2; exact ⟨h1.symm, h2⟩
    | cons c z =>
      cases h2
      exact absurd (by rw [h1]; simp) (hd hm')
  · cases z with
    | nil => simp at h1 h2; exact ⟨h1, h2.symm⟩
    | cons c z =>
      cases h2
      exact absurd (by rw [h1]; simp) (hd hm)

theorem pieces_inj {cc : CharClass} (ok : cc.Ok) {h h' : Header} (hn : ∀ x ∈ headerNames h, IsIdent cc x) (hn' : ∀ x ∈ headerNames h', IsIdent cc x) (e : pieces h = pieces h') : h = h' := by
  have hd : ∀ {x : Str}, IsIdent cc x → '.' ∉ x := fun hx hc => idChar_ne ok (hx.chars ok _ hc) (by decide) rfl
  cases h with
  | raw a =>
    cases h' with
    | raw a' => simp [pieces] at e; rw [e]
    | named m' f' =>
      simp [pieces] at e
      exact absurd (by rw [e]; simp) (hd (hn a (by simp [headerNames])))
    | aliased m' f' a' => simp [pieces] at e
  | named m f =>
    cases h' with
    | raw a' =>
      simp [pieces] at e
      exact absurd (by rw [← e]; simp) (hd (hn' a' (by simp [headerNames])))
    | named m' f' =>
      simp only [pieces, List.cons.injEq, and_true] at e
      obtain ⟨rfl, rfl⟩ := dot_split ok (hn m (by simp [headerNames])) (hn' m' (by simp [headerNames])) e
      rfl
    | aliased m' f' a' => simp [pieces] at e
  | aliased m f a =>
    cases h' with
    | raw a' => simp [pieces] at e
    | named m' f' => simp [pieces] at e
    | aliased m' f' a' =>
      simp only [pieces, List.cons.injEq, and_true] at e
      obtain ⟨rfl, rfl⟩ := dot_split ok (hn m (by simp [headerNames])) (hn' m' (by simp [headerNames])) e.1
      rw [e.2]

/-- White space before each piece. -/
def wsOf (d : DeclText) : List Str :=
  match d.header with
  | .raw _ => [d.w0]
  | .named _ _ => [d.w0]
  | .aliased _ _ _ => [d.w0, d.w1]

theorem wsOf_len (d : DeclText) : (wsOf d).length = (pieces d.header).length := by
  unfold wsOf
  cases d.header <;> rfl

theorem tag_eq (d : DeclText) (t : Str) : d.w0 ++ (headerText d.w1 d.header ++ (d.w2 ++ '>' :: t)) = flat (wsOf d) (pieces d.header) ++ (d.w2 ++ '>' :: t) := by
  unfold wsOf
  cases d.header <;> simp [flat, pieces, headerText]

theorem gap_spaces {cc : CharClass} {env : Env} (sp : SpaceOk cc env) {g : Str} (h : IsGap g) : Spaces env g := fun c hc => sp.gap c (h c hc)

theorem IsBlank.gap {w : Str} (h : IsBlank w) : IsGap w := by
  intro c hc
  rcases h c hc with h | h | h
  · exact Or.inl h
  · exact Or.inr (Or.inl h)
  · exact Or.inr (Or.inr (Or.inl h))

theorem wsOf_ok {cc : CharClass} {env : Env} (sp : SpaceOk cc env) {d : DeclText} (hd : d.Ok cc env) : ∀ v ∈ wsOf d, Spaces env v ∧ v ≠ [] := by
  have h0 : Spaces env d.w0 ∧ d.w0 ≠ [] := ⟨gap_spaces sp hd.w0.1, hd.w0.2⟩
  have h1 : Spaces env d.w1 ∧ d.w1 ≠ [] := ⟨gap_spaces sp hd.w1.1.gap, hd.w1.2⟩
  intro v hv
  unfold wsOf at hv
  cases hh : d.header with
  | raw a => rw [hh] at hv; simp at hv; rw [hv]; exact h0
  | named m f => rw [hh] at hv; simp at hv; rw [hv]; exact h0
  | aliased m f a =>
    rw [hh] at hv; simp at hv
    rcases hv with rfl | rfl
    · exact h0
    · exact h1

theorem gap_no_lt {g : Str} (h : IsGap g) : ∀ c ∈ g, c ≠ '<' := by
  rintro c hc rfl
  rcases h _ hc with h | h | h | h <;> revert h <;> decide

theorem header_no_lt {cc : CharClass} (ok : cc.Ok) {h : Header} (hn : ∀ x ∈ headerNames h, IsIdent cc x) {w : Str} (hw : IsBlank w) : ∀ c ∈ headerText w h, c ≠ '<' := by
  have hi : ∀ x ∈ headerNames h, ∀ c ∈ x, c ≠ '<' := fun x hx c hc => idChar_ne ok ((hn x hx).chars ok c hc) (by decide)
  intro c hc
  cases h with
  | raw a => exact hi a (by simp [headerNames]) c hc
  | named m f =>
    simp only [headerText, List.mem_append, List.mem_cons] at hc
    rcases hc with hc | rfl | hc
    · exact hi m (by simp [headerNames]) c hc
    · decide
    · exact hi f (by simp [headerNames]) c hc
  | aliased m f a =>
    simp only [headerText, List.mem_append, List.mem_cons] at hc
    rcases hc with ((hc | rfl | hc) | hc) | hc
    · exact hi m (by simp [headerNames]) c hc
    · decide
    · exact hi f (by simp [headerNames]) c hc
    · exact gap_no_lt hw.gap c hc
    · exact hi a (by simp [headerNames]) c hc

/-- The tag of another declaration does not match. -/
theorem other_tag {cc : CharClass} (ok : cc.Ok) {env : Env} (sp : SpaceOk cc env) {d : DeclText} (hd : d.Ok cc env) (act : Bool) {h : Header}
    (hn : ∀ x ∈ headerNames h, IsIdent cc x) (hne : h ≠ d.header) (t : Str) :
    matchHere env (openStr act) (closeStr act) (pieces h) (opening d.act ++ (d.w0 ++ (headerText d.w1 d.header ++ (d.w2 ++ '>' :: t)))) = none := by
  by_cases ha : act = d.act
  · subst ha
    unfold matchHere
    rw [opening_eq, strip?_append, tag_eq]
    simp only [bind, Option.bind]
    cases hm : matchPieces env (pieces h) (flat (wsOf d) (pieces d.header) ++ (d.w2 ++ '>' :: t)) with
    | none => rfl
    | some y =>
      simp only
      cases hx : strip? ['>'] (y.dropWhile env.isSpace) with
      | none => rfl
      | some x =>
        have := words_eq env sp.gt (pieces h) (pieces d.header) (wsOf d) d.w2 t y x (pieces_word ok sp hn) (pieces_word ok sp hd.names) (wsOf_len d) (wsOf_ok sp hd)
          (gap_spaces sp hd.w2.gap) hm hx
        exact absurd (pieces_inj ok hn hd.names this) hne
  · apply matchHere_none
    intro hp
    cases act <;> cases hd' : d.act <;> rw [hd'] at hp ha <;> first | exact ha rfl | simp [openStr, opening] at hp

theorem NoM.decl {cc : CharClass} (ok : cc.Ok) {env : Env} (sp : SpaceOk cc env) {d : DeclText} (hd : d.Ok cc env) (act : Bool) {h : Header}
    (hn : ∀ x ∈ headerNames h, IsIdent cc x) (hne : h ≠ d.header) (rest : Str) : NoM (matchHere env (openStr act) (closeStr act) (pieces h)) d.text rest := by
  unfold DeclText.text
  refine NoM.append (NoM.quiet (hd.before.quiet ?_)) ?_
  · intro c r e
    rw [List.append_assoc] at e
    exact Or.inl (head_lt_opening c r e)
  · have hafter : NoM (matchHere env (openStr act) (closeStr act) (pieces h)) (d.w0 ++ (headerText d.w1 d.header ++ (d.w2 ++ '>' :: (d.content ++ closing d.act)))) rest := by
      refine NoM.append (NoM.noLt (gap_no_lt hd.w0.1)) (NoM.append (NoM.noLt (header_no_lt ok hd.names hd.w1.1)) (NoM.append (NoM.noLt (gap_no_lt hd.w2.gap)) ?_))
      have e : '>' :: (d.content ++ closing d.act) = ['>'] ++ (d.content ++ closing d.act) := rfl
      rw [e]
      exact NoM.append (NoM.noLt (by decide)) (NoM.append (NoM.quiet (hd.content.quiet (fun c r e => Or.inl (head_lt_closing c r e)))) (NoM.closeTag _ _))
    refine NoM.append ?_ hafter
    -- the opening tag itself: its first position, then no `<`
    have h0 : ∃ r, opening d.act = '<' :: r ∧ ∀ c ∈ r, c ≠ '<' := by
      cases d.act
      · exact ⟨"lvar".toList, rfl, by decide⟩
      · exact ⟨"lact".toList, rfl, by decide⟩
    obtain ⟨r, e, hr⟩ := h0
    intro a b hab hb
    cases a with
    | nil =>
      rw [List.nil_append] at hab
      subst hab
      have := other_tag ok sp hd act hn hne (d.content ++ (closing d.act ++ rest))
      simpa using this
    | cons x a =>
      rw [e] at hab
      simp only [List.cons_append, List.cons.injEq] at hab
      exact NoM.noLt hr a b hab.2 hb

theorem NoM.decls {cc : CharClass} (ok : cc.Ok) {env : Env} (sp : SpaceOk cc env) {ds : List DeclText} (hds : ∀ d ∈ ds, d.Ok cc env) (act : Bool) {h : Header}
    (hn : ∀ x ∈ headerNames h, IsIdent cc x) (hne : ∀ d ∈ ds, h ≠ d.header) (rest : Str) :
    NoM (matchHere env (openStr act) (closeStr act) (pieces h)) (ds.flatMap DeclText.text) rest := by
  induction ds generalizing rest with
  | nil => exact NoM.nil _ _
  | cons d ds ih =>
    rw [List.flatMap_cons]
    exact NoM.append (NoM.decl ok sp (hds d List.mem_cons_self) act hn (hne d List.mem_cons_self) _)
      (ih (fun x hx => hds x (List.mem_cons_of_mem _ hx)) (fun x hx => hne x (List.mem_cons_of_mem _ hx)) rest)

theorem dropWhile_all {p : Char → Bool} {l : Str} (h : ∀ c ∈ l, p c = true) : l.dropWhile p = [] := by
  induction l with
  | nil => rfl
  | cons c l ih => rw [List.dropWhile_cons_of_pos (h c List.mem_cons_self)]; exact ih (fun x hx => h x (List.mem_cons_of_mem _ hx))

theorem dropWhile_front {p : Char → Bool} {a b : Str} (ha : ∀ c ∈ a, p c = true) (hb : ∀ c, b.head? = some c → p c = false) : (a ++ b).dropWhile p = b := by
  induction a with
  | nil =>
    cases b with
    | nil => rfl
    | cons c b => rw [List.nil_append, List.dropWhile_cons_of_neg (by rw [hb c rfl]; simp)]
  | cons c a ih => rw [List.cons_append, List.dropWhile_cons_of_pos (ha c List.mem_cons_self)]; exact ih (fun x hx => ha x (List.mem_cons_of_mem _ hx))

theorem strip_content {cc : CharClass} {env : Env} {d : DeclText} (hd : d.Ok cc env) : stripWs env d.content = d.body := by
  unfold stripWs DeclText.content
  by_cases hb : d.body = []
  · have h1 : ∀ c ∈ d.lead ++ (d.body ++ d.trail), env.isSpace c = true := by
      intro c hc
      rw [hb] at hc
      rcases List.mem_append.1 hc with hc | hc
      · exact hd.lead c hc
      · exact hd.trail c (by simpa using hc)
    rw [dropWhile_all h1, hb]; rfl
  · rw [dropWhile_front hd.lead, List.reverse_append, dropWhile_front, List.reverse_reverse]
    · intro c hc; exact hd.trail c (List.mem_reverse.1 hc)
    · intro c hc; exact hd.bodyLast c (by rw [← List.head?_reverse]; exact hc)
    · intro c hc
      cases hbb : d.body with
      | nil => exact absurd hbb hb
      | cons x b => rw [hbb] at hc; simp at hc; exact hd.bodyHead c (by rw [hbb, ← hc]; rfl)

/-- In a well-formed document the content found for each declaration is its own. -/
theorem content_own {cc : CharClass} (ok : cc.Ok) {env : Env} (sp : SpaceOk cc env) {pre : List DeclText} {d : DeclText} (hpre : ∀ x ∈ pre, x.Ok cc env) (hd : d.Ok cc env)
    (hne : ∀ x ∈ pre, d.header ≠ x.header) (post : Str) :
    contentOf env (pre.flatMap DeclText.text ++ (d.text ++ post)) d.act d.header = some d.body := by
  unfold contentOf
  have ht : opening d.act ++ (d.w0 ++ (headerText d.w1 d.header ++ (d.w2 ++ '>' :: (d.content ++ (closing d.act ++ post))))) =
      tagText d.act (wsOf d) d.w2 d.header ++ d.content ++ closeStr d.act ++ post := by
    rw [tag_eq]; simp [tagText, flat, opening_eq, closing_eq]
  have hno : NoClose (closeStr d.act) d.content post := by
    intro a b e
    rcases Nat.lt_or_ge a.length d.content.length with hlt | hge
    · exfalso
      rw [List.append_assoc, List.append_assoc] at e
      rcases List.append_eq_append_iff.1 e with ⟨z, h1, h2⟩ | ⟨z, h1, h2⟩
      · rw [h1, List.length_append] at hlt; omega
      · have hz : z ≠ [] := by rintro rfl; rw [h1] at hlt; simp at hlt
        have hq := hd.content.quiet (rest := closing d.act ++ post) (fun c r e => Or.inl (head_lt_closing c r e))
        refine hq a z h1 hz (closeStr d.act) (closing_key d.act) ?_
        exact ⟨b, by rw [h2]; rfl⟩
    · exact hge
  have hm := matchHere_eq env sp.gt d.act d.header (wsOf d) d.w2 d.content post (wsOf_len d) (wsOf_ok sp hd) (gap_spaces sp hd.w2.gap) (by
    intro p hp
    obtain ⟨h1, h2⟩ := pieces_word ok sp hd.names p hp
    cases p with
    | nil => exact absurd rfl h1
    | cons c r => exact ⟨c, r, rfl, (h2 c List.mem_cons_self).1⟩) hno
  have e : pre.flatMap DeclText.text ++ (d.text ++ post) =
      (pre.flatMap DeclText.text ++ d.before) ++ (tagText d.act (wsOf d) d.w2 d.header ++ d.content ++ closeStr d.act ++ post) := by
    rw [← ht]; simp [DeclText.text]
  rw [e, search_skip _ _ _ ?_ d.content hm]
  · rw [Option.map_some, strip_content hd]
  · refine NoM.append (NoM.decls ok sp hpre d.act hd.names hne _) (NoM.quiet (hd.before.quiet ?_))
    intro c r e
    rw [← ht] at e
    exact Or.inl (head_lt_opening c r e)

/-! ### Parsing -/

/-- The loop over the declarations of a document, whatever follows. -/
theorem parseLoop_prefix (env : Env) (src : Str) {ds : List (Bool × Header)} {ts : List Token} (hds : DeclsToks ds ts) (tl : List Token) (htl : tl ≠ [])
    (fuel : Nat) (al : List Str) (p : Program) (hf : ts.length < fuel) (hn : (ds.map (·.2.alias)).Nodup) (hal : ∀ a ∈ ds.map (·.2.alias), a ∉ al)
    (cs : List Str) (hcs : ds.map (fun d => contentOf env src d.1 d.2) = cs.map some) :
    ∃ fuel' al', parseLoop env src fuel al p (ts ++ tl) = parseLoop env src (fuel' + 1) al'
      { p with lvars := p.lvars ++ (mkProgram ((ds.zip cs).map (fun x => (x.1.1, ⟨x.1.2, x.2⟩)))).lvars,
               lacts := p.lacts ++ (mkProgram ((ds.zip cs).map (fun x => (x.1.1, ⟨x.1.2, x.2⟩)))).lacts } tl := by
  induction hds generalizing fuel al p cs with
  | nil =>
    cases fuel with
    | zero => simp at hf
    | succ fuel => exact ⟨fuel, al, by simp [mkProgram]⟩
  | other t ds ts h1 h2 h3 h4 hds ih =>
    have hne : ts ++ tl ≠ [] := by simp [htl]
    cases fuel with
    | zero => simp at hf
    | succ fuel =>
      simp only [List.length_cons] at hf
      rw [List.cons_append]
      by_cases hnl : t.kind = .newline
      · rw [parseLoop_newline env src t hnl _ hne]
        exact ih _ _ _ (by omega) hn hal _ hcs
      · rw [parseLoop_other env src t h1 h2 h3 h4 hnl _ hne]
        exact ih _ _ _ (by omega) hn hal _ hcs
  | decl act h dt ds ts hd hds ih =>
    have hne : ts ++ tl ≠ [] := by simp [htl]
    obtain ⟨o, r, eo, ho⟩ := hd.open
    cases cs with
    | nil => simp at hcs
    | cons c cs =>
      simp only [List.map_cons, List.cons.injEq] at hcs
      simp only [List.map_cons, List.nodup_cons] at hn
      cases fuel with
      | zero => simp at hf
      | succ fuel =>
        rw [List.append_assoc, parseLoop_decl env src hd _ hne, hcs.1]
        simp only
        rw [if_neg (hal _ (by simp))]
        obtain ⟨f', al', e⟩ := ih fuel (h.alias :: al) (addDecl act ⟨h, c⟩ p) (by rw [eo] at hf; simp at hf; omega) hn.2 (by
          intro a ha hm
          rw [List.mem_cons] at hm
          rcases hm with rfl | hm
          · exact hn.1 ha
          · exact hal a (by simp at ha ⊢; exact Or.inr ha) hm) cs hcs.2
        refine ⟨f', al', ?_⟩
        rw [e]
        cases act <;> simp [addDecl, mkProgram]

/-- The declarations of the document of one sort, in order, each with its names and its trimmed content. -/
def declared (act : Bool) (ds : List DeclText) : List Decl := (ds.filter (fun d => d.act == act)).map (fun d => ⟨d.header, d.body⟩)

theorem contents {cc : CharClass} (ok : cc.Ok) {env : Env} (sp : SpaceOk cc env) (post : Str) : ∀ (ds pre : List DeclText), (∀ x ∈ pre, x.Ok cc env) → (∀ x ∈ ds, x.Ok cc env) →
    ((pre ++ ds).map (fun x => refName x.header)).Nodup →
    (declHeaders ds).map (fun d => contentOf env ((pre ++ ds).flatMap DeclText.text ++ post) d.1 d.2) = (ds.map DeclText.body).map some := by
  intro ds
  induction ds with
  | nil => intros; rfl
  | cons d ds ih =>
    intro pre hpre hds hnd
    have hd := hds d List.mem_cons_self
    simp only [declHeaders, List.map_cons, List.cons.injEq]
    constructor
    · have := content_own ok sp hpre hd (fun x hx e => by
        rw [List.map_append, List.nodup_append] at hnd
        refine hnd.2.2 (refName x.header) (List.mem_map_of_mem hx) (refName d.header) (by simp) (by rw [e])) (ds.flatMap DeclText.text ++ post)
      simpa using this
    · have e : pre ++ d :: ds = (pre ++ [d]) ++ ds := by simp
      rw [e]
      refine ih (pre ++ [d]) ?_ (fun x hx => hds x (List.mem_cons_of_mem _ hx)) (by rw [← e]; exact hnd)
      intro x hx
      rcases List.mem_append.1 hx with hx | hx
      · exact hpre x hx
      · rw [List.mem_singleton] at hx; rw [hx]; exact hd

theorem declared_eq (ds : List DeclText) :
    (mkProgram (((declHeaders ds).zip (ds.map DeclText.body)).map (fun x => (x.1.1, ⟨x.1.2, x.2⟩)))).lvars = declared false ds ∧
    (mkProgram (((declHeaders ds).zip (ds.map DeclText.body)).map (fun x => (x.1.1, ⟨x.1.2, x.2⟩)))).lacts = declared true ds := by
  have e : ((declHeaders ds).zip (ds.map DeclText.body)).map (fun x => (x.1.1, (⟨x.1.2, x.2⟩ : Decl))) = ds.map (fun d => (d.act, (⟨d.header, d.body⟩ : Decl))) := by
    induction ds with
    | nil => rfl
    | cons d ds ih => simp only [declHeaders, List.map_cons, List.zip_cons_cons] at ih ⊢; rw [ih]
  rw [e]
  constructor
  · simp only [mkProgram, declared, List.filter_map, List.map_map]
    congr 1
    apply List.filter_congr
    intro x _
    cases hx : x.act <;> simp [hx]
  · simp only [mkProgram, declared, List.filter_map, List.map_map]
    congr 1
    apply List.filter_congr
    intro x _
    cases hx : x.act <;> simp [hx]

/-- Lexer and parser on a well-formed document. -/
theorem parse_document {cc : CharClass} (ok : cc.Ok) (hl : Letters cc) {env : Env} (sp : SpaceOk cc env) {d : DocText} (hd : d.Ok cc env) :
    parseText cc env d.text = .ok ⟨declared false d.decls, declared true d.decls, d.out.map (fun o => o.1.foldl (fun acc fv => acc.set fv.1 fv.2) [])⟩ := by
  obtain ⟨ts, hts⟩ := C45_total ok d.text
  unfold parseText
  rw [hts]
  simp only
  have hk := K_tokenize ok hts
  unfold DocText.text at hk
  have hrest : ∀ c r, outText d.out = c :: r → c = 'O' := by
    intro c r e
    cases ho : d.out with
    | none => rw [ho] at e; cases e
    | some o =>
      obtain ⟨fs, t, tail⟩ := o
      rw [ho] at e; cases e; rfl
  have hbound : Bound cc d.last (outText d.out) := by
    intro c r e
    obtain rfl := hrest c r e
    refine ⟨by decide, by simp [isNumChar, hl.digitO], Or.inr ?_⟩
    cases ho : d.out with
    | none => rw [ho] at e; cases e
    | some o =>
      obtain ⟨fs, t, tail⟩ := o
      exact (hd.out fs t tail ho).2
  obtain ⟨k1, e1, p1⟩ := K_decls ok hl hd.decls (hd.last.quiet (fun c r e => Or.inr (hrest c r e))) hbound
  rw [e1] at hk
  obtain ⟨a, b, rfl, ha, hb⟩ := map_kv_append hk
  have hbne : b ≠ [] := by
    rintro rfl
    exact K_ne_nil ok false (outText d.out) hb.symm
  have hnames : ((declHeaders d.decls).map (·.2.alias)).Nodup := by
    have := hd.names
    simpa [declHeaders, alias_eq, Function.comp_def] using this
  have hcs := contents ok sp (d.last ++ outText d.out) d.decls [] (by simp) hd.decls (by simpa using hd.names)
  rw [List.nil_append] at hcs
  unfold parse
  obtain ⟨f', al', e⟩ := parseLoop_prefix env d.text (p1 a ha) b hbne ((a ++ b).length + 1) [] ⟨[], [], none⟩
    (by simp; omega) hnames (by simp) (d.decls.map DeclText.body) hcs
  rw [e, (declared_eq d.decls).1, (declared_eq d.decls).2]
  cases ho : d.out with
  | none =>
    rw [ho] at hb
    have hb : b.map kv = [(Kind.eof, [])] := hb
    obtain ⟨x, rfl, hx, _⟩ := lex_one hb
    rw [parseLoop]
    simp [skipNl, hx]
  | some o =>
    obtain ⟨fs, t, tail⟩ := o
    rw [ho] at hb
    have hb : b.map kv = K cc false ("OUT{".toList ++ (t ++ '}' :: tail)) := hb
    obtain ⟨k2, e2, p2⟩ := lex_fields ok hl (hd.out fs t tail ho).1 ('}' :: tail) (Stop.cons ok _ (by decide))
    rw [K_out ok, e2, K_punct ok true (k := .outClose) rfl (by decide), if_pos rfl] at hb
    obtain ⟨o, y, rfl, hok, _, hy⟩ := map_kv_cons hb
    obtain ⟨fts, z, rfl, hfts, hz⟩ := map_kv_append hy
    obtain ⟨x, tl, rfl, hx, _, htl⟩ := map_kv_cons hz
    have htlne : tl ≠ [] := by
      rintro rfl
      exact K_ne_nil ok false tail htl.symm
    have hs : skipNl (o :: (fts ++ x :: tl)) = o :: (fts ++ x :: tl) := skipNl_cons_of_ne o _ (by rw [hok]; simp)
    rw [parseLoop, hs, cur_cons, hok, if_neg (by simp), if_neg (by simp), if_neg (by simp), if_pos rfl, C49_wellformed (p2 fts hfts) o x hok hx tl htlne]
    simp [bind, Except.bind]

/-! ### C138 -/

/-- C138: a well-formed document is read back exactly: every `lvar` and `lact` in order, with its names and its own content, trimmed; and the output block (if there is one), in which a field that is given twice
has its last value.  Prose between declarations, and all that follows the output block, has no influence. -/
theorem C138_document {cc : CharClass} (ok : cc.Ok) (hl : Letters cc) {env : Env} (sp : SpaceOk cc env) {d : DocText} (hd : d.Ok cc env) :
    ∃ out, parseText cc env d.text = .ok ⟨declared false d.decls, declared true d.decls, out⟩ ∧ (out.isSome = d.out.isSome) ∧
      ∀ fs t tail o, d.out = some (fs, t, tail) → out = some o → ∀ f, o.get? f = (fs.reverse.find? (fun fv => fv.1 == f)).map Prod.snd := by
  refine ⟨_, parse_document ok hl sp hd, by simp, ?_⟩
  intro fs t tail o ho he f
  rw [ho] at he
  cases he
  exact C49_last_wins fs f

theorem foldl_set_distinct (fs acc : List (Str × OutVal)) (h : (acc ++ fs).map Prod.fst |>.Nodup) :
    fs.foldl (fun (a : Dict Str OutVal) fv => a.set fv.1 fv.2) acc = acc ++ fs := by
  induction fs generalizing acc with
  | nil => simp
  | cons fv fs ih =>
    rw [List.foldl_cons]
    have hnm : fv.1 ∉ acc.map Prod.fst := by
      rw [List.map_append, List.map_cons, List.nodup_append] at h
      intro hm
      exact h.2.2 _ hm fv.1 (by simp) rfl
    rw [Dict.set_of_notMem (d := acc) fv.2 hnm, ih]
    · simp
    · simpa using h

/-- C138: with distinct field names the output block is exactly the list of its fields. -/
theorem C138_fields {cc : CharClass} (ok : cc.Ok) (hl : Letters cc) {env : Env} (sp : SpaceOk cc env) {d : DocText} (hd : d.Ok cc env)
    (hn : ∀ fs t tail, d.out = some (fs, t, tail) → (fs.map Prod.fst).Nodup) :
    parseText cc env d.text = .ok ⟨declared false d.decls, declared true d.decls, d.out.map (fun o => o.1)⟩ := by
  rw [parse_document ok hl sp hd]
  cases ho : d.out with
  | none => rfl
  | some o =>
    obtain ⟨fs, t, tail⟩ := o
    have := foldl_set_distinct fs [] (by simpa using hn fs t tail ho)
    simp only [Option.map_some]
    rw [this]
    rfl

/-! #### A document that meets the hypotheses -/

theorem asciiSpace : SpaceOk asciiClass asciiEnv where
  gap := by rintro c (rfl | rfl | rfl | rfl) <;> decide
  ident := by
    intro c h
    cases hs : asciiEnv.isSpace c with
    | false => rfl
    | true =>
      exfalso
      simp only [asciiEnv, Char.isWhitespace, Bool.or_eq_true, decide_eq_true_eq] at hs
      rcases hs with ((rfl | rfl) | rfl) | rfl <;> exact absurd h (by decide)
  dot := by decide
  gt := by decide

/-- Sketch: `Let me think. <lvar Report.title t> Good "news" </lvar>, then <lact s>search(q='x')</lact> done: OUT{title: [t], n: 3, ok: true} bye <lvar`. -/
def sampleDoc : DocText where
  decls := [
    { before := "Let me think. ".toList, act := false, header := .aliased "Report".toList "title".toList ['t'], w0 := [' '], w1 := [' '], w2 := [], lead := [' '],
      body := "Good \"news\"".toList, trail := [' '] },
    { before := ", then ".toList, act := true, header := .raw ['s'], w0 := ['\n'], w1 := [' '], w2 := [' '], lead := [], body := "search(q='x')".toList, trail := [] }]
  last := " done: ".toList
  out := some ([("title".toList, .refs [['t']]), (['n'], .num ['3']), ("ok".toList, .bool true)], "title: [t], n: 3,\n ok: true".toList, " bye <lvar".toList)

/-- The sample is read back. -/
example : parseText asciiClass asciiEnv sampleDoc.text =
    .ok ⟨[⟨.aliased "Report".toList "title".toList ['t'], "Good \"news\"".toList⟩], [⟨.raw ['s'], "search(q='x')".toList⟩],
      some [("title".toList, .refs [['t']]), (['n'], .num ['3']), ("ok".toList, .bool true)]⟩ := by decide +kernel

theorem ident_of {x : Str} (h : ∃ c r, x = c :: r ∧ (asciiClass.isAlpha c = true ∨ c = '_') ∧ r.all (isIdChar asciiClass) = true) : IsIdent asciiClass x := by
  obtain ⟨c, r, e, h1, h2⟩ := h
  exact ⟨c, r, e, h1, List.all_eq_true.1 h2⟩

theorem gap_of {g : Str} (h : g.all (fun c => c == ' ' || c == '\t' || c == '\r' || c == '\n') = true) : IsGap g := by
  intro c hc
  have := List.all_eq_true.1 h c hc
  simp only [Bool.or_eq_true, beq_iff_eq] at this
  rcases this with ((h | h) | h) | h
  · exact Or.inl h
  · exact Or.inr (Or.inl h)
  · exact Or.inr (Or.inr (Or.inl h))
  · exact Or.inr (Or.inr (Or.inr h))

/-- No keyword starts at any position. -/
def plainB : Str → Bool
  | [] => true
  | c :: u => keywords.all (fun k => !k.isPrefixOf (c :: u)) && plainB u

theorem plain_of {u : Str} (h : plainB u = true) : Plain u := by
  induction u with
  | nil =>
    intro k hk hi
    have := List.eq_nil_of_infix_nil hi
    subst this
    revert hk; decide
  | cons c u ih =>
    simp only [plainB, Bool.and_eq_true, List.all_eq_true, Bool.not_eq_true'] at h
    intro k hk hi
    rcases List.infix_cons_iff.1 hi with hp | hi
    · have := h.1 k hk
      rw [List.isPrefixOf_iff_prefix.2 hp] at this; cases this
    · exact ih h.2 k hk hi

/-- Non-vacuity: the sample is well-formed. -/
theorem sampleDoc_ok : sampleDoc.Ok asciiClass asciiEnv where
  decls := by
    intro x hx
    simp only [sampleDoc, List.mem_cons, List.not_mem_nil, or_false] at hx
    rcases hx with rfl | rfl
    · refine ⟨plain_of (by decide +kernel), ?_, ⟨gap_of (by decide), by decide⟩, ⟨by intro c hc; simp at hc; exact Or.inl hc, by decide⟩, by simp [IsBlank], plain_of (by decide +kernel),
        by decide, by decide, by decide, by decide⟩
      intro x hx
      simp only [headerNames, List.mem_cons, List.not_mem_nil, or_false] at hx
      rcases hx with rfl | rfl | rfl
      · exact ident_of ⟨'R', "eport".toList, by decide, by decide, by decide⟩
      · exact ident_of ⟨'t', "itle".toList, by decide, by decide, by decide⟩
      · exact ident_of ⟨'t', [], by decide, by decide, by decide⟩
    · refine ⟨plain_of (by decide +kernel), ?_, ⟨gap_of (by decide), by decide⟩, ⟨by intro c hc; simp at hc; exact Or.inl hc, by decide⟩,
        by intro c hc; simp at hc; exact Or.inl hc, plain_of (by decide +kernel), by decide, by decide, by decide, by decide⟩
      intro x hx
      simp only [headerNames, List.mem_cons, List.not_mem_nil, or_false] at hx
      subst hx
      exact ident_of ⟨'s', [], by decide, by decide, by decide⟩
  last := plain_of (by decide +kernel)
  out := by
    intro fs t tail h
    cases h
    refine ⟨?_, by decide⟩
    have f1 : FieldText asciiClass asciiEnv ("title".toList, .refs [['t']]) "title: [t]".toList :=
      FieldText.mk [] "title".toList [] [' '] _ _ [] (gap_of rfl) (ident_of ⟨'t', "itle".toList, by decide, by decide, by decide⟩) (gap_of rfl) (gap_of (by decide))
        (ValText.refs _ _ (RefsText.last [] [] ['t'] (gap_of rfl) (ident_of ⟨'t', [], by decide, by decide, by decide⟩) (gap_of rfl))) (gap_of rfl)
    have f2 : FieldText asciiClass asciiEnv (['n'], .num ['3']) " n: 3".toList :=
      FieldText.mk [' '] ['n'] [] [' '] _ _ [] (gap_of (by decide)) (ident_of ⟨'n', [], by decide, by decide, by decide⟩) (gap_of rfl) (gap_of (by decide))
        (ValText.num ['3'] ⟨'3', [], Or.inl rfl, by decide, by decide, by simp⟩ (by decide)) (gap_of rfl)
    have f3 : FieldText asciiClass asciiEnv ("ok".toList, .bool true) "\n ok: true".toList :=
      FieldText.mk ['\n', ' '] "ok".toList [] [' '] _ _ [] (gap_of (by decide)) (ident_of ⟨'o', ['k'], by decide, by decide, by decide⟩) (gap_of rfl) (gap_of (by decide))
        (ValText.tru "true".toList (ident_of ⟨'t', "rue".toList, by decide, by decide, by decide⟩) (by decide)) (gap_of rfl)
    exact FieldsText.cons _ _ _ _ f1 (FieldsText.cons _ _ _ _ f2 (FieldsText.last _ _ f3))
  names := by decide

end Verif.Parser
