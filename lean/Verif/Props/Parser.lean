import Verif.Lemmas.Parser

/-!
# LNDL parser: C47, C48, C49, C104, C105
-/

set_option linter.unusedSectionVars false
set_option linter.unusedSimpArgs false
set_option linter.unusedVariables false

namespace Verif.Parser

open Verif.Lexer

/-! ### C47: aliases -/

/-- All aliases of a program. -/
def Program.aliases (p : Program) : List Str := (p.lvars ++ p.lacts).map (·.header.alias)

theorem aliases_add (act : Bool) (d : Decl) (p : Program) : (addDecl act d p).aliases.Perm (d.header.alias :: p.aliases) := by
  cases act with
  | false =>
    simp only [addDecl, Program.aliases, Bool.false_eq_true, if_false, List.map_append, List.map_cons, List.map_nil, List.append_assoc]
    exact List.perm_middle
  | true =>
    simp only [addDecl, Program.aliases, if_true, List.map_append, List.map_cons, List.map_nil]
    rw [← List.append_assoc]
    exact (List.perm_append_singleton _ _)

theorem parseLoop_nodup (env : Env) (src : Str) (fuel : Nat) (al : List Str) (p q : Program) (ts : List Token)
    (hal : ∀ a, a ∈ al ↔ a ∈ p.aliases) (hnd : p.aliases.Nodup) (h : parseLoop env src fuel al p ts = .ok q) : q.aliases.Nodup := by
  induction fuel generalizing al p ts with
  | zero => cases h
  | succ fuel ih =>
    rw [parseLoop] at h
    have hdecl : ∀ act, (do
          let (d, r) ← parseDecl env src act (skipNl ts)
          if d.header.alias ∈ al then .error .parse
          else parseLoop env src fuel (d.header.alias :: al) (addDecl act d p) r) = .ok q → q.aliases.Nodup := by
      intro act he
      cases e1 : parseDecl env src act (skipNl ts) with
      | error e => rw [e1] at he; cases he
      | ok dr =>
        obtain ⟨d, r⟩ := dr
        rw [e1] at he
        simp only [bind, Except.bind] at he
        split at he
        · cases he
        · next hnm =>
          have hp := aliases_add act d p
          refine ih _ _ r ?_ ?_ he
          · intro a
            rw [hp.mem_iff, List.mem_cons, List.mem_cons, hal]
          · rw [hp.nodup_iff, List.nodup_cons]
            exact ⟨fun hm => hnm ((hal _).2 hm), hnd⟩
    split at h
    · cases h; exact hnd
    · split at h
      · exact hdecl false h
      · split at h
        · exact hdecl true h
        · split at h
          · cases e1 : parseOut env (skipNl ts) with
            | error e => rw [e1] at h; cases h
            | ok o =>
              rw [e1] at h
              cases h
              exact hnd
          · exact ih al p _ hal hnd h

/-- In every parsed program the aliases of all lvars and lacts are pairwise distinct. -/
theorem aliases_distinct (env : Env) (src : Str) (ts : List Token) (p : Program) (h : parse env src ts = .ok p) : p.aliases.Nodup :=
  parseLoop_nodup env src _ [] ⟨[], [], none⟩ p ts (by simp [Program.aliases]) (by simp [Program.aliases]) h

/-! #### Token streams made of declarations and other text -/

def Newlines (l : List Token) : Prop := ∀ t ∈ l, t.kind = .newline

/-- Tokens of the names of a header. -/
inductive NameToks : Header → List Token → Prop where
  | raw (t : Token) : t.kind = .ident → NameToks (.raw t.value) [t]
  | named (t d f : Token) : t.kind = .ident → d.kind = .dot → f.kind = .ident → NameToks (.named t.value f.value) [t, d, f]
  | aliased (t d f a : Token) : t.kind = .ident → d.kind = .dot → f.kind = .ident → a.kind = .ident →
      NameToks (.aliased t.value f.value a.value) [t, d, f, a]

/-- Tokens of a declaration: opening tag, names, `>`, any tokens, closing tag. -/
inductive DeclToks : Bool → Header → List Token → Prop where
  | mk (act : Bool) (h : Header) (o g c : Token) (n names body : List Token) : o.kind = openKind act → Newlines n → NameToks h names →
      g.kind = .gt → (∀ t ∈ body, t.kind ≠ closeKind act ∧ t.kind ≠ .eof) → c.kind = closeKind act →
      DeclToks act h (o :: n ++ names ++ g :: body ++ [c])

/-- Tokens of a text with declarations `ds` between other tokens. -/
inductive DeclsToks : List (Bool × Header) → List Token → Prop where
  | nil : DeclsToks [] []
  | other (t : Token) (ds : List (Bool × Header)) (ts : List Token) : t.kind ≠ .lvarOpen → t.kind ≠ .lactOpen → t.kind ≠ .outOpen → t.kind ≠ .eof →
      DeclsToks ds ts → DeclsToks ds (t :: ts)
  | decl (act : Bool) (h : Header) (dt : List Token) (ds : List (Bool × Header)) (ts : List Token) : DeclToks act h dt → DeclsToks ds ts →
      DeclsToks ((act, h) :: ds) (dt ++ ts)

@[simp] theorem cur_cons (t : Token) (r : List Token) : cur (t :: r) = t.kind := rfl
@[simp] theorem curVal_cons (t : Token) (r : List Token) : curVal (t :: r) = t.value := rfl

theorem adv_cons (t : Token) {r : List Token} (h : r ≠ []) : adv (t :: r) = r := by
  cases r with
  | nil => exact absurd rfl h
  | cons => rfl

theorem skipNl_cons_of_ne (t : Token) (r : List Token) (h : t.kind ≠ .newline) : skipNl (t :: r) = t :: r := by
  cases r with
  | nil => rfl
  | cons => rw [skipNl, if_neg h]

theorem skipNl_append {n ts : List Token} (hn : Newlines n) (h : ts ≠ []) : skipNl (n ++ ts) = skipNl ts := by
  induction n with
  | nil => rfl
  | cons t n ih =>
    have ht : t.kind = .newline := hn t (by simp)
    have ih' := ih (fun x hx => hn x (List.mem_cons_of_mem _ hx))
    have hne : n ++ ts ≠ [] := by simp [h]
    cases hnt : n ++ ts with
    | nil => exact absurd hnt hne
    | cons u r =>
      rw [List.cons_append, hnt, skipNl, if_pos ht, ← hnt, ih']

theorem expect_cons {k : Kind} {t : Token} {r : List Token} (h : t.kind = k) (hr : r ≠ []) : expect k (t :: r) = .ok (t.value, r) := by
  unfold expect
  rw [cur_cons, if_pos h, adv_cons t hr]; rfl

theorem parseNames_toks {h : Header} {names : List Token} (hn : NameToks h names) (n : List Token) (hnl : Newlines n) (g : Token) (hg : g.kind = .gt)
    (r : List Token) : parseNames (n ++ names ++ g :: r) = .ok (h, g :: r) := by
  have key : ∀ l, l ≠ [] → skipNl (n ++ l) = skipNl l := fun l hl => skipNl_append hnl hl
  unfold parseNames
  rw [List.append_assoc, key _ (by simp)]
  cases hn with
  | raw t ht =>
    simp only [List.cons_append, List.nil_append]
    rw [skipNl_cons_of_ne _ _ (by rw [ht]; simp), expect_cons ht (by simp)]
    simp only [bind, Except.bind, cur_cons, hg]
    rw [if_neg (by simp)]
  | named t d f ht hd hf =>
    simp only [List.cons_append, List.nil_append]
    rw [skipNl_cons_of_ne _ _ (by rw [ht]; simp), expect_cons ht (by simp)]
    simp only [bind, Except.bind, cur_cons, hd]
    rw [if_pos trivial, adv_cons d (by simp)]
    unfold parseField
    rw [expect_cons hf (by simp)]
    simp only [bind, Except.bind, cur_cons, hg]
    rw [if_neg (by simp)]
  | aliased t d f a ht hd hf ha =>
    simp only [List.cons_append, List.nil_append]
    rw [skipNl_cons_of_ne _ _ (by rw [ht]; simp), expect_cons ht (by simp)]
    simp only [bind, Except.bind, cur_cons, hd]
    rw [if_pos trivial, adv_cons d (by simp)]
    unfold parseField
    rw [expect_cons hf (by simp)]
    simp only [bind, Except.bind, cur_cons, ha]
    rw [if_pos trivial, adv_cons a (by simp), curVal_cons]

theorem skipTo_toks (k : Kind) (body : List Token) (hb : ∀ t ∈ body, t.kind ≠ k ∧ t.kind ≠ .eof) (c : Token) (hc : c.kind = k) (tl : List Token) (htl : tl ≠ []) :
    skipTo k (body ++ c :: tl) = .ok tl := by
  induction body with
  | nil => rw [List.nil_append, skipTo, if_pos hc, adv_cons c htl]
  | cons t body ih =>
    have := hb t (by simp)
    rw [List.cons_append, skipTo, if_neg this.1, if_neg this.2]
    exact ih (fun x hx => hb x (List.mem_cons_of_mem _ hx))

theorem skipNl_body (k : Kind) (body : List Token) (hb : ∀ t ∈ body, t.kind ≠ k ∧ t.kind ≠ .eof) (c : Token) (hc : c.kind = k) (hk : k ≠ .newline) (tl : List Token) :
    ∃ body', skipNl (body ++ c :: tl) = body' ++ c :: tl ∧ ∀ t ∈ body', t.kind ≠ k ∧ t.kind ≠ .eof := by
  induction body with
  | nil => exact ⟨[], skipNl_cons_of_ne _ _ (by rw [hc]; exact hk), by simp⟩
  | cons t body ih =>
    by_cases ht : t.kind = .newline
    · obtain ⟨b', h1, h2⟩ := ih (fun x hx => hb x (List.mem_cons_of_mem _ hx))
      refine ⟨b', ?_, h2⟩
      have := skipNl_append (n := [t]) (ts := body ++ c :: tl) (by intro x hx; simp at hx; rw [hx]; exact ht) (by simp)
      rw [List.singleton_append] at this
      rw [List.cons_append, this, h1]
    · exact ⟨t :: body, skipNl_cons_of_ne _ _ ht, hb⟩

theorem parseDecl_toks (env : Env) (src : Str) {act : Bool} {h : Header} {dt : List Token} (hd : DeclToks act h dt) (tl : List Token) (htl : tl ≠ []) :
    parseDecl env src act (dt ++ tl) = match contentOf env src act h with
      | none => .error .parse
      | some c => .ok (⟨h, c⟩, tl) := by
  cases hd with
  | mk o g c n names body ho hn hnm hg hb hc =>
    unfold parseDecl
    have e : o :: n ++ names ++ g :: body ++ [c] ++ tl = o :: (n ++ names ++ g :: (body ++ c :: tl)) := by simp
    rw [e, expect_cons ho (by simp)]
    simp only [bind, Except.bind]
    rw [parseNames_toks hnm n hn g hg]
    simp only
    rw [expect_cons hg (by simp)]
    simp only
    cases contentOf env src act h with
    | none => rfl
    | some x =>
      simp only
      obtain ⟨b', h1, h2⟩ := skipNl_body (closeKind act) body hb c hc (by cases act <;> simp [closeKind]) tl
      rw [h1, skipTo_toks _ b' h2 c hc tl htl]

theorem DeclToks.open {act : Bool} {h : Header} {dt : List Token} (hd : DeclToks act h dt) : ∃ o r, dt = o :: r ∧ o.kind = openKind act := by
  cases hd with
  | mk o g c n names body ho hn hnm hg hb hc => exact ⟨o, n ++ (names ++ g :: (body ++ [c])), by simp, ho⟩

/-- One step of the loop over a declaration. -/
theorem parseLoop_decl (env : Env) (src : Str) {act : Bool} {h : Header} {dt : List Token} (hd : DeclToks act h dt) (tl : List Token) (htl : tl ≠ [])
    (fuel : Nat) (al : List Str) (p : Program) :
    parseLoop env src (fuel + 1) al p (dt ++ tl) = match contentOf env src act h with
      | none => .error .parse
      | some c => if h.alias ∈ al then .error .parse else parseLoop env src fuel (h.alias :: al) (addDecl act ⟨h, c⟩ p) tl := by
  obtain ⟨o, r, e, ho⟩ := hd.open
  have hs : skipNl (dt ++ tl) = dt ++ tl := by
    rw [e, List.cons_append, skipNl_cons_of_ne]
    rw [ho]; cases act <;> simp [openKind]
  have hcur : cur (dt ++ tl) = openKind act := by rw [e, List.cons_append, cur_cons, ho]
  rw [parseLoop, hs, hcur]
  cases act with
  | false =>
    rw [if_neg (by simp [openKind]), if_pos (by simp [openKind]), parseDecl_toks env src hd tl htl]
    cases contentOf env src false h with
    | none => rfl
    | some c => simp only [bind, Except.bind]
  | true =>
    rw [if_neg (by simp [openKind]), if_neg (by simp [openKind]), if_pos (by simp [openKind]), parseDecl_toks env src hd tl htl]
    cases contentOf env src true h with
    | none => rfl
    | some c => simp only [bind, Except.bind]

/-- One step of the loop over another token. -/
theorem parseLoop_other (env : Env) (src : Str) (t : Token) (h1 : t.kind ≠ .lvarOpen) (h2 : t.kind ≠ .lactOpen) (h3 : t.kind ≠ .outOpen) (h4 : t.kind ≠ .eof)
    (hnl : t.kind ≠ .newline) (tl : List Token) (htl : tl ≠ []) (fuel : Nat) (al : List Str) (p : Program) :
    parseLoop env src (fuel + 1) al p (t :: tl) = parseLoop env src fuel al p tl := by
  rw [parseLoop, skipNl_cons_of_ne t tl hnl, cur_cons, if_neg h4, if_neg h1, if_neg h2, if_neg h3, adv_cons t htl]

theorem parseLoop_newline (env : Env) (src : Str) (t : Token) (hnl : t.kind = .newline) (tl : List Token) (htl : tl ≠ []) (fuel : Nat) (al : List Str) (p : Program) :
    parseLoop env src (fuel + 1) al p (t :: tl) = parseLoop env src (fuel + 1) al p tl := by
  have := skipNl_append (n := [t]) (ts := tl) (by intro x hx; simp at hx; rw [hx]; exact hnl) htl
  rw [List.singleton_append] at this
  rw [parseLoop, this]
  conv => rhs; rw [parseLoop]

/-- A repeated alias (or one already in use) makes the loop fail. -/
theorem parseLoop_dup (env : Env) (src : Str) {ds : List (Bool × Header)} {ts : List Token} (hds : DeclsToks ds ts) (tl : List Token) (htl : tl ≠ [])
    (fuel : Nat) (al : List Str) (p : Program) (hf : ts.length < fuel) (hdup : ¬ ((ds.map (·.2.alias)).Nodup ∧ ∀ a ∈ ds.map (·.2.alias), a ∉ al)) :
    parseLoop env src fuel al p (ts ++ tl) = .error .parse := by
  induction hds generalizing fuel al p with
  | nil => exact absurd ⟨by simp, by simp⟩ hdup
  | other t ds ts h1 h2 h3 h4 hds ih =>
    have hne : ts ++ tl ≠ [] := by simp [htl]
    cases fuel with
    | zero => simp at hf
    | succ fuel =>
      simp only [List.length_cons] at hf
      rw [List.cons_append]
      by_cases hnl : t.kind = .newline
      · rw [parseLoop_newline env src t hnl _ hne]
        exact ih _ _ _ (by omega) hdup
      · rw [parseLoop_other env src t h1 h2 h3 h4 hnl _ hne]
        exact ih _ _ _ (by omega) hdup
  | decl act h dt ds ts hd hds ih =>
    have hne : ts ++ tl ≠ [] := by simp [htl]
    obtain ⟨o, r, e, ho⟩ := hd.open
    cases fuel with
    | zero => simp at hf
    | succ fuel =>
      rw [List.append_assoc, parseLoop_decl env src hd _ hne]
      cases contentOf env src act h with
      | none => rfl
      | some c =>
        simp only
        split
        · rfl
        · next hal =>
          refine ih _ _ _ (by rw [e] at hf; simp at hf; omega) ?_
          rintro ⟨hn, hd'⟩
          apply hdup
          simp only [List.map_cons, List.nodup_cons]
          refine ⟨⟨fun hm => (hd' _ hm) (by simp), hn⟩, ?_⟩
          intro a ha
          rw [List.mem_cons] at ha
          rcases ha with rfl | ha
          · exact hal
          · exact fun hm => hd' a ha (List.mem_cons_of_mem _ hm)

/-- A text whose declarations repeat an alias is rejected with a parse error, whatever follows. -/
theorem duplicate_rejected (env : Env) (src : Str) {ds : List (Bool × Header)} {ts : List Token} (hds : DeclsToks ds ts) (tl : List Token) (htl : tl ≠ [])
    (hdup : ¬ (ds.map (·.2.alias)).Nodup) : parse env src (ts ++ tl) = .error .parse := by
  unfold parse
  exact parseLoop_dup env src hds tl htl _ _ _ (by simp; omega) (fun h => hdup h.1)

/-- The program of a list of declarations. -/
def mkProgram (ds : List (Bool × Decl)) : Program :=
  ⟨(ds.filter (fun d => !d.1)).map (·.2), (ds.filter (fun d => d.1)).map (·.2), none⟩

theorem parseLoop_ok (env : Env) (src : Str) {ds : List (Bool × Header)} {ts : List Token} (hds : DeclsToks ds ts) (e : Token) (he : e.kind = .eof)
    (fuel : Nat) (al : List Str) (p : Program) (hf : ts.length < fuel) (hn : (ds.map (·.2.alias)).Nodup) (hal : ∀ a ∈ ds.map (·.2.alias), a ∉ al)
    (cs : List Str) (hcs : ds.map (fun d => contentOf env src d.1 d.2) = cs.map some) :
    parseLoop env src fuel al p (ts ++ [e]) =
      .ok { p with lvars := p.lvars ++ (mkProgram ((ds.zip cs).map (fun x => (x.1.1, ⟨x.1.2, x.2⟩)))).lvars,
                   lacts := p.lacts ++ (mkProgram ((ds.zip cs).map (fun x => (x.1.1, ⟨x.1.2, x.2⟩)))).lacts } := by
  induction hds generalizing fuel al p cs with
  | nil =>
    cases fuel with
    | zero => simp at hf
    | succ fuel =>
      rw [List.nil_append, parseLoop]
      simp [skipNl, he, mkProgram]
  | other t ds ts h1 h2 h3 h4 hds ih =>
    have hne : ts ++ [e] ≠ [] := by simp
    cases fuel with
    | zero => simp at hf
    | succ fuel =>
      simp only [List.length_cons] at hf
      rw [List.cons_append]
      by_cases hnl : t.kind = .newline
      · rw [parseLoop_newline env src t hnl _ hne]
        exact ih _ _ _ (by omega) hn hal _ hcs
      · rw [parseLoop_other env src t h1 h2 h3 h4 hnl _ hne]
        exact ih _ _ _ (by omega) hn hal _ hcs
  | decl act h dt ds ts hd hds ih =>
    have hne : ts ++ [e] ≠ [] := by simp
    obtain ⟨o, r, eo, ho⟩ := hd.open
    cases cs with
    | nil => simp at hcs
    | cons c cs =>
      simp only [List.map_cons, List.cons.injEq] at hcs
      simp only [List.map_cons, List.nodup_cons] at hn
      cases fuel with
      | zero => simp at hf
      | succ fuel =>
        rw [List.append_assoc, parseLoop_decl env src hd _ hne, hcs.1]
        simp only
        rw [if_neg (hal _ (by simp))]
        rw [ih _ _ _ (by rw [eo] at hf; simp at hf; omega) hn.2 ?_ cs hcs.2]
        · cases act <;> simp [addDecl, mkProgram]
        · intro a ha hm
          rw [List.mem_cons] at hm
          rcases hm with rfl | hm
          · exact hn.1 ha
          · exact hal a (by simp at ha ⊢; exact Or.inr ha) hm

/-- The converse: a text whose declarations have distinct aliases, and whose contents are found, is accepted with exactly these declarations in order. -/
theorem distinct_accepted (env : Env) (src : Str) {ds : List (Bool × Header)} {ts : List Token} (hds : DeclsToks ds ts) (e : Token) (he : e.kind = .eof)
    (hn : (ds.map (·.2.alias)).Nodup) (cs : List Str) (hcs : ds.map (fun d => contentOf env src d.1 d.2) = cs.map some) :
    parse env src (ts ++ [e]) = .ok (mkProgram ((ds.zip cs).map (fun x => (x.1.1, ⟨x.1.2, x.2⟩)))) := by
  unfold parse
  rw [parseLoop_ok env src hds e he _ _ _ (by simp; omega) hn (by simp) cs hcs]
  simp [mkProgram]

/-- The name by which a declaration is referenced: `<lvar alias>` by the alias, `<lvar Model.field>` by the field, `<lvar Model.field alias>` by the alias. -/
def refName : Header → Str
  | .raw alias => alias
  | .named _ field => field
  | .aliased _ _ alias => alias

theorem alias_eq (h : Header) : h.alias = refName h := by cases h <;> rfl

/-- C47: in every parsed program the names of all lvars and lacts are pairwise distinct. -/
theorem C47_distinct (env : Env) (src : Str) (ts : List Token) (p : Program) (h : parse env src ts = .ok p) :
    ((p.lvars ++ p.lacts).map (fun d => refName d.header)).Nodup := by
  have := aliases_distinct env src ts p h
  simpa only [Program.aliases, alias_eq] using this

/-- C47: a text whose declarations repeat a name is rejected with a parse error, whatever follows. -/
theorem C47_duplicate_rejected (env : Env) (src : Str) {ds : List (Bool × Header)} {ts : List Token} (hds : DeclsToks ds ts) (tl : List Token) (htl : tl ≠ [])
    (hdup : ¬ (ds.map (fun d => refName d.2)).Nodup) : parse env src (ts ++ tl) = .error .parse :=
  duplicate_rejected env src hds tl htl (by simpa only [alias_eq] using hdup)

/-- C47, the converse: a text whose declarations have distinct names, and whose contents are found, is accepted with exactly these declarations in order. -/
theorem C47_accepted (env : Env) (src : Str) {ds : List (Bool × Header)} {ts : List Token} (hds : DeclsToks ds ts) (e : Token) (he : e.kind = .eof)
    (hn : (ds.map (fun d => refName d.2)).Nodup) (cs : List Str) (hcs : ds.map (fun d => contentOf env src d.1 d.2) = cs.map some) :
    parse env src (ts ++ [e]) = .ok (mkProgram ((ds.zip cs).map (fun x => (x.1.1, ⟨x.1.2, x.2⟩)))) :=
  distinct_accepted env src hds e he (by simpa only [alias_eq] using hn) cs hcs

/-- Non-vacuity: two declarations, an lvar and a lact, with distinct aliases. -/
example : parseText asciiClass asciiEnv "hi <lvar R.t a> X </lvar> and\n<lact b>f(1)</lact>".toList =
    .ok ⟨[⟨.aliased ['R'] ['t'] ['a'], ['X']⟩], [⟨.raw ['b'], "f(1)".toList⟩], none⟩ := by decide +kernel

/-- Non-vacuity: the same alias twice. -/
example : parseText asciiClass asciiEnv "<lvar R.t a> X </lvar> and\n<lact a>f(1)</lact>".toList = .error .parse := by decide +kernel

/-! ### C48: content -/

/-- `needle` occurs in `hay` nowhere before its end: the text before the closing tag. -/
def NoClose (close content post : Str) : Prop := ∀ a b, content ++ close ++ post = a ++ close ++ b → content.length ≤ a.length

theorem startsWith_iff {p t : Str} : startsWith p t = true ↔ ∃ r, t = p ++ r := by
  rw [isPrefixOf_iff]
  constructor
  · rintro ⟨r, h⟩; exact ⟨r, h.symm⟩
  · rintro ⟨r, h⟩; exact ⟨r, h.symm⟩

theorem strip?_append (p r : Str) : strip? p (p ++ r) = some r := by
  unfold strip?
  rw [if_pos (startsWith_iff.2 ⟨r, rfl⟩)]
  simp

theorem upTo_eq (close content post : Str) (hne : close ≠ []) (h : NoClose close content post) :
    upTo close (content ++ close ++ post) = some content := by
  induction content with
  | nil =>
    rw [List.nil_append]
    cases hc : close ++ post with
    | nil => simp [hne] at hc
    | cons c r => rw [upTo, if_pos (startsWith_iff.2 ⟨post, hc.symm⟩)]
  | cons c content ih =>
    have hns : startsWith close (c :: (content ++ close ++ post)) = false := by
      rw [Bool.eq_false_iff]
      intro hs
      obtain ⟨r, hr⟩ := startsWith_iff.1 hs
      have := h [] r (by simpa using hr)
      simp at this
    rw [List.cons_append, List.cons_append, upTo, hns, if_neg (by simp), ih]
    · rfl
    · intro a b hab
      have := h (c :: a) b (by simp [← hab])
      simpa using this

/-- White space. -/
def Spaces (env : Env) (w : Str) : Prop := ∀ c ∈ w, env.isSpace c = true

theorem dropWhile_spaces (env : Env) (w : Str) (hw : Spaces env w) (t : Str) (ht : ∀ c r, t = c :: r → env.isSpace c = false) :
    (w ++ t).dropWhile env.isSpace = t := by
  induction w with
  | nil =>
    cases t with
    | nil => rfl
    | cons c r => rw [List.nil_append, List.dropWhile_cons_of_neg (by rw [ht c r rfl]; simp)]
  | cons c w ih =>
    rw [List.cons_append, List.dropWhile_cons_of_pos (hw c (by simp))]
    exact ih (fun x hx => hw x (List.mem_cons_of_mem _ hx))

/-- The opening tag of a header, with the given white space: `<lvar a >`, `<lvar M.f>`, `<lvar M.f a>`. -/
def tagText (act : Bool) (ws : List Str) (w : Str) (h : Header) : Str :=
  openStr act ++ (ws.zip (pieces h)).flatMap (fun x => x.1 ++ x.2) ++ w ++ ['>']

theorem matchPieces_eq (env : Env) (ws : List Str) (ps : List Str) (hlen : ws.length = ps.length) (hws : ∀ w ∈ ws, Spaces env w ∧ w ≠ [])
    (hps : ∀ p ∈ ps, ∃ c r, p = c :: r ∧ env.isSpace c = false) (t : Str) :
    matchPieces env ps ((ws.zip ps).flatMap (fun x => x.1 ++ x.2) ++ t) = some t := by
  induction ps generalizing ws with
  | nil =>
    simp [matchPieces]
  | cons p ps ih =>
    cases ws with
    | nil => simp at hlen
    | cons w ws =>
      obtain ⟨hw, hne⟩ := hws w (by simp)
      obtain ⟨c, r, hp, hc⟩ := hps p (by simp)
      cases w with
      | nil => exact absurd rfl hne
      | cons x w =>
        have hx := hw x (by simp)
        have hws' : Spaces env w := fun y hy => hw y (List.mem_cons_of_mem _ hy)
        simp only [List.zip_cons_cons, List.flatMap_cons, List.append_assoc, List.cons_append]
        rw [matchPieces]
        simp only [hx, if_true]
        rw [dropWhile_spaces env w hws' _ (by
          intro c' r' e
          rw [hp] at e
          simp at e
          rw [← e.1]; exact hc), strip?_append]
        exact ih ws (by simpa using hlen) (fun w hw => hws w (List.mem_cons_of_mem _ hw)) (fun q hq => hps q (List.mem_cons_of_mem _ hq))

theorem matchHere_eq (env : Env) (hgt : env.isSpace '>' = false) (act : Bool) (h : Header) (ws : List Str) (w content post : Str)
    (hlen : ws.length = (pieces h).length) (hws : ∀ x ∈ ws, Spaces env x ∧ x ≠ []) (hw : Spaces env w)
    (hps : ∀ p ∈ pieces h, ∃ c r, p = c :: r ∧ env.isSpace c = false) (hno : NoClose (closeStr act) content post) :
    matchHere env (openStr act) (closeStr act) (pieces h) (tagText act ws w h ++ content ++ closeStr act ++ post) = some content := by
  unfold matchHere tagText
  simp only [List.append_assoc]
  rw [strip?_append]
  simp only [bind, Option.bind]
  rw [matchPieces_eq env ws (pieces h) hlen hws hps]
  simp only
  rw [dropWhile_spaces env w hw _ (by
    intro c r e
    simp at e
    rw [← e.1]; exact hgt), strip?_append]
  simp only
  have hne : closeStr act ≠ [] := by cases act <;> decide
  have := upTo_eq (closeStr act) content post hne hno
  simpa [List.append_assoc] using this

theorem search_skip (m : Str → Option Str) (pre t : Str) (hpre : ∀ a b, pre = a ++ b → b ≠ [] → m (b ++ t) = none) (x : Str) (hx : m t = some x) :
    search m (pre ++ t) = some x := by
  induction pre with
  | nil =>
    cases t with
    | nil => simpa [search] using hx
    | cons c r => simp [search, hx]
  | cons c pre ih =>
    have h1 := hpre [] (c :: pre) rfl (by simp)
    rw [List.cons_append] at h1 ⊢
    rw [search, h1]
    exact ih (fun a b e hb => hpre (c :: a) b (by rw [e]; rfl) hb)

/-- C48, where it holds: if no earlier position of the source matches the declaration's opening tag followed by a closing tag, the content is the stripped text between its own tags (up to the next closing
tag).  Missing: the earlier lookalikes of `C48_lookalike_violation`. -/
theorem C48_own_content_partial (env : Env) (hgt : env.isSpace '>' = false) (act : Bool) (h : Header) (pre content post : Str) (ws : List Str) (w : Str)
    (hlen : ws.length = (pieces h).length) (hws : ∀ x ∈ ws, Spaces env x ∧ x ≠ []) (hw : Spaces env w)
    (hps : ∀ p ∈ pieces h, ∃ c r, p = c :: r ∧ env.isSpace c = false) (hno : NoClose (closeStr act) content post)
    (hpre : ∀ a b, pre = a ++ b → b ≠ [] →
      matchHere env (openStr act) (closeStr act) (pieces h) (b ++ (tagText act ws w h ++ content ++ closeStr act ++ post)) = none) :
    contentOf env (pre ++ (tagText act ws w h ++ content ++ closeStr act ++ post)) act h = some (stripWs env content) := by
  unfold contentOf
  rw [search_skip _ _ _ hpre content (matchHere_eq env hgt act h ws w content post hlen hws hw hps hno)]
  rfl

theorem parseLoop_content (env : Env) (src : Str) (fuel : Nat) (al : List Str) (p q : Program) (ts : List Token) (hts : Closed ts)
    (hv : ∀ d ∈ p.lvars, contentOf env src false d.header = some d.content) (ha : ∀ d ∈ p.lacts, contentOf env src true d.header = some d.content)
    (h : parseLoop env src fuel al p ts = .ok q) :
    (∀ d ∈ q.lvars, contentOf env src false d.header = some d.content) ∧ (∀ d ∈ q.lacts, contentOf env src true d.header = some d.content) := by
  induction fuel generalizing al p ts with
  | zero => cases h
  | succ fuel ih =>
    rw [parseLoop] at h
    have hn := skipNl_suf hts.ne_nil
    have hnc := hts.suf hn
    have hdecl : ∀ act, (do
          let (d, r) ← parseDecl env src act (skipNl ts)
          if d.header.alias ∈ al then .error .parse
          else parseLoop env src fuel (d.header.alias :: al) (addDecl act d p) r) = .ok q →
          (∀ d ∈ q.lvars, contentOf env src false d.header = some d.content) ∧ (∀ d ∈ q.lacts, contentOf env src true d.header = some d.content) := by
      intro act he
      rcases parseDecl_cases env src act hnc with e1 | ⟨d, r, e1, hs, hlt, hcont⟩
      · rw [e1] at he; cases he
      · rw [e1] at he
        simp only [bind, Except.bind] at he
        split at he
        · cases he
        · refine ih _ _ r (hts.suf (hs.trans hn)) ?_ ?_ he
          · cases act with
            | true => exact hv
            | false =>
              intro x hx
              simp only [addDecl, Bool.false_eq_true, if_false, List.mem_append, List.mem_singleton] at hx
              rcases hx with hx | rfl
              · exact hv x hx
              · exact hcont
          · cases act with
            | false => exact ha
            | true =>
              intro x hx
              simp only [addDecl, if_true, List.mem_append, List.mem_singleton] at hx
              rcases hx with hx | rfl
              · exact ha x hx
              · exact hcont
    split at h
    · cases h; exact ⟨hv, ha⟩
    · split at h
      · exact hdecl false h
      · split at h
        · exact hdecl true h
        · split at h
          · cases e1 : parseOut env (skipNl ts) with
            | error e => rw [e1] at h; cases h
            | ok o =>
              rw [e1] at h
              cases h
              exact ⟨hv, ha⟩
          · have h3 := adv_suf hn.2
            exact ih al p _ (hts.suf (h3.trans hn)) hv ha h

/-- C48, exactly what the parser does: every declaration gets the content of the leftmost place of the source that looks like its tag. -/
theorem C48_leftmost_partial (env : Env) (src : Str) (ts : List Token) (hts : Closed ts) (p : Program) (h : parse env src ts = .ok p) :
    (∀ d ∈ p.lvars, contentOf env src false d.header = some d.content) ∧ (∀ d ∈ p.lacts, contentOf env src true d.header = some d.content) :=
  parseLoop_content env src _ [] ⟨[], [], none⟩ p ts hts (by simp) (by simp) h

/-- The text of the second declaration, `Y`, is replaced by that of a lookalike inside the first one. -/
theorem C48_lookalike_violation :
    parseText asciiClass asciiEnv "<lvar a>use <lvar b>X</lvar> <lvar b>Y</lvar>".toList =
      .ok ⟨[⟨.raw ['a'], "use <lvar b>X".toList⟩, ⟨.raw ['b'], "X".toList⟩], [], none⟩ := by decide +kernel

/-- Non-vacuity of `C48_own_content_partial`: text before the tag. -/
example : contentOf asciiEnv "so: <lvar a > X y </lvar> z".toList false (.raw ['a']) = some "X y".toList := by decide +kernel

/-! ### C49: OUT blocks -/

/-- Tokens of a list of references, between the brackets: identifiers separated by commas (a trailing comma is allowed), newlines anywhere. -/
inductive RefToks : List Str → List Token → Prop where
  | nil (n : List Token) : Newlines n → RefToks [] n
  | last (n m : List Token) (t : Token) : Newlines n → t.kind = .ident → Newlines m → RefToks [t.value] (n ++ t :: m)
  | cons (n m : List Token) (t c : Token) (rs : List Str) (ts : List Token) : Newlines n → t.kind = .ident → Newlines m → c.kind = .comma →
      RefToks rs ts → RefToks (t.value :: rs) (n ++ t :: (m ++ c :: ts))

/-- Tokens of a value. -/
inductive ValToks (env : Env) : OutVal → List Token → Prop where
  | refs (rs : List Str) (l r : Token) (ts : List Token) : l.kind = .lbracket → RefToks rs ts → r.kind = .rbracket → ValToks env (.refs rs) (l :: (ts ++ [r]))
  | str (t : Token) : t.kind = .str → ValToks env (.str t.value) [t]
  | num (t : Token) : t.kind = .num → env.numOk t.value = true → ValToks env (.num t.value) [t]
  | tru (t : Token) : t.kind = .ident → t.value.map Char.toLower = "true".toList → ValToks env (.bool true) [t]
  | fls (t : Token) : t.kind = .ident → t.value.map Char.toLower = "false".toList → ValToks env (.bool false) [t]
  | name (t : Token) : t.kind = .ident → t.value.map Char.toLower ≠ "true".toList → t.value.map Char.toLower ≠ "false".toList → ValToks env (.refs [t.value]) [t]

/-- Tokens of one field. -/
inductive FieldToks (env : Env) : Str × OutVal → List Token → Prop where
  | mk (n a b m : List Token) (f c : Token) (v : OutVal) (vs : List Token) : Newlines n → f.kind = .ident → Newlines a → c.kind = .colon → Newlines b →
      ValToks env v vs → Newlines m → FieldToks env (f.value, v) (n ++ f :: (a ++ c :: (b ++ (vs ++ m))))

/-- Tokens of the fields, separated by commas (a trailing comma is allowed). -/
inductive FieldsToks (env : Env) : List (Str × OutVal) → List Token → Prop where
  | nil (n : List Token) : Newlines n → FieldsToks env [] n
  | last (fv : Str × OutVal) (ts : List Token) : FieldToks env fv ts → FieldsToks env [fv] ts
  | cons (fv : Str × OutVal) (ts : List Token) (c : Token) (fs : List (Str × OutVal)) (ts' : List Token) : FieldToks env fv ts → c.kind = .comma →
      FieldsToks env fs ts' → FieldsToks env (fv :: fs) (ts ++ c :: ts')

theorem skipNl_to {n : List Token} (hn : Newlines n) (t : Token) (ht : t.kind ≠ .newline) (r : List Token) : skipNl (n ++ t :: r) = t :: r := by
  rw [skipNl_append hn (by simp), skipNl_cons_of_ne t r ht]

theorem parseRefs_skip (fuel : Nat) (n ts : List Token) (hn : Newlines n) (h : ts ≠ []) : parseRefs fuel (n ++ ts) = parseRefs fuel ts := by
  cases fuel with
  | zero => rfl
  | succ fuel => rw [parseRefs, parseRefs, skipNl_append hn h]

theorem parseRefs_toks {rs : List Str} {ts : List Token} (h : RefToks rs ts) (r : Token) (hr : r.kind = .rbracket) (tl : List Token) (fuel : Nat)
    (hf : ts.length < fuel) : parseRefs fuel (ts ++ r :: tl) = .ok (rs, r :: tl) := by
  induction h generalizing fuel with
  | nil n hn =>
    cases fuel with
    | zero => omega
    | succ fuel =>
      rw [parseRefs, skipNl_to hn r (by rw [hr]; simp), cur_cons, if_pos (Or.inl hr)]
  | last n m t hn ht hm =>
    cases fuel with
    | zero => omega
    | succ fuel =>
      have e : n ++ t :: m ++ r :: tl = n ++ t :: (m ++ r :: tl) := by simp
      have e2 : adv (t :: (m ++ r :: tl)) = m ++ r :: tl := adv_cons t (by simp)
      rw [e, parseRefs, skipNl_to hn t (by rw [ht]; simp), cur_cons, if_neg (by rw [ht]; simp), if_pos ht, e2,
        skipNl_to hm r (by rw [hr]; simp), cur_cons, if_neg (by rw [hr]; simp)]
      cases fuel with
      | zero => simp at hf
      | succ fuel =>
        rw [parseRefs, skipNl_cons_of_ne r tl (by rw [hr]; simp), cur_cons, if_pos (Or.inl hr)]
        rfl
  | cons n m t c rs ts hn ht hm hc hrs ih =>
    cases fuel with
    | zero => omega
    | succ fuel =>
      have e : n ++ t :: (m ++ c :: ts) ++ r :: tl = n ++ t :: (m ++ c :: (ts ++ r :: tl)) := by simp
      have e2 : adv (t :: (m ++ c :: (ts ++ r :: tl))) = m ++ c :: (ts ++ r :: tl) := adv_cons t (by simp)
      have e3 : adv (c :: (ts ++ r :: tl)) = ts ++ r :: tl := adv_cons c (by simp)
      rw [e, parseRefs, skipNl_to hn t (by rw [ht]; simp), cur_cons, if_neg (by rw [ht]; simp), if_pos ht, e2,
        skipNl_to hm c (by rw [hc]; simp), cur_cons, if_pos hc, e3, ih fuel (by simp at hf; omega)]
      rfl

theorem ValToks.first {env : Env} {v : OutVal} {vs : List Token} (h : ValToks env v vs) : ∃ t r, vs = t :: r ∧ t.kind ≠ .newline := by
  cases h with
  | refs rs l r ts hl => exact ⟨_, _, rfl, by rw [hl]; simp⟩
  | str t ht => exact ⟨_, _, rfl, by rw [ht]; simp⟩
  | num t ht => exact ⟨_, _, rfl, by rw [ht]; simp⟩
  | tru t ht => exact ⟨_, _, rfl, by rw [ht]; simp⟩
  | fls t ht => exact ⟨_, _, rfl, by rw [ht]; simp⟩
  | name t ht => exact ⟨_, _, rfl, by rw [ht]; simp⟩

theorem RefToks.skip {rs : List Str} {ts : List Token} (h : RefToks rs ts) (r : Token) (hr : r.kind = .rbracket) (tl : List Token) (fuel : Nat) :
    parseRefs fuel (skipNl (ts ++ r :: tl)) = parseRefs fuel (ts ++ r :: tl) := by
  have key : ∀ l : List Token, skipNl (skipNl l) = skipNl l := by
    intro l
    induction l with
    | nil => rfl
    | cons t l ih =>
      cases l with
      | nil => rfl
      | cons u l =>
        rw [skipNl]
        split
        · exact ih
        · next h => rw [skipNl, if_neg h]
  cases fuel with
  | zero => rfl
  | succ fuel => rw [parseRefs, parseRefs, key]

theorem parseVal_toks {env : Env} {v : OutVal} {vs : List Token} (h : ValToks env v vs) (tl : List Token) (htl : tl ≠ []) (fuel : Nat) (hf : vs.length ≤ fuel) :
    parseVal env fuel (vs ++ tl) = .ok (some v, tl) := by
  cases h with
  | refs rs l r ts hl hrs hr =>
    have e : l :: (ts ++ [r]) ++ tl = l :: (ts ++ r :: tl) := by simp
    unfold parseVal
    rw [e, cur_cons, hl]
    simp only
    rw [adv_cons l (by simp), hrs.skip r hr, parseRefs_toks hrs r hr tl fuel (by simp at hf; omega)]
    simp only [bind, Except.bind, cur_cons, hr, if_true]
    rw [adv_cons r htl]
  | str t ht =>
    unfold parseVal
    rw [List.singleton_append, cur_cons, ht]
    simp only
    rw [adv_cons t htl, curVal_cons]
  | num t ht hn =>
    unfold parseVal
    rw [List.singleton_append, cur_cons, ht]
    simp only
    rw [adv_cons t htl, curVal_cons, if_pos hn]
  | tru t ht hv =>
    unfold parseVal
    rw [List.singleton_append, cur_cons, ht]
    simp only
    rw [adv_cons t htl, curVal_cons, identVal, lower, if_pos hv]
  | fls t ht hv =>
    unfold parseVal
    rw [List.singleton_append, cur_cons, ht]
    simp only
    rw [adv_cons t htl, curVal_cons, identVal, lower, if_neg (by rw [hv]; decide), if_pos hv]
  | name t ht h1 h2 =>
    unfold parseVal
    rw [List.singleton_append, cur_cons, ht]
    simp only
    rw [adv_cons t htl, curVal_cons, identVal, lower, if_neg h1, if_neg h2]

theorem sepOut_comma {m : List Token} (hm : Newlines m) (c : Token) (hc : c.kind = .comma) (r : List Token) (hr : r ≠ []) : sepOut (m ++ c :: r) = r := by
  unfold sepOut
  rw [skipNl_to hm c (by rw [hc]; simp), cur_cons, if_pos hc, adv_cons c hr]

theorem sepOut_close {m : List Token} (hm : Newlines m) (c : Token) (hc : c.kind = .outClose) (r : List Token) : sepOut (m ++ c :: r) = c :: r := by
  unfold sepOut
  rw [skipNl_to hm c (by rw [hc]; simp), cur_cons, if_neg (by rw [hc]; simp)]

/-- One iteration over a well-formed field. -/
theorem parseFields_field {env : Env} {fv : Str × OutVal} {ts : List Token} (h : FieldToks env fv ts) (d : Dict Str OutVal) (tl : List Token) (htl : tl ≠ []) (fuel : Nat)
    (hf : ts.length ≤ fuel) :
    ∃ m, Newlines m ∧ parseFields env (fuel + 1) d (ts ++ tl) = parseFields env fuel (d.set fv.1 fv.2) (sepOut (m ++ tl)) := by
  cases h with
  | mk n a b m f c v vs hn hfk ha hc hb hv hm =>
    refine ⟨m, hm, ?_⟩
    obtain ⟨t, r, hvs, ht⟩ := hv.first
    have e : n ++ f :: (a ++ c :: (b ++ (vs ++ m))) ++ tl = n ++ f :: (a ++ c :: (b ++ (vs ++ (m ++ tl)))) := by simp
    have e1 : adv (f :: (a ++ c :: (b ++ (vs ++ (m ++ tl))))) = a ++ c :: (b ++ (vs ++ (m ++ tl))) := adv_cons f (by simp)
    have e2 : skipNl (b ++ (vs ++ (m ++ tl))) = vs ++ (m ++ tl) := by
      rw [hvs, List.cons_append]
      exact skipNl_to hb t ht _
    rw [e, parseFields, skipNl_to hn f (by rw [hfk]; simp), cur_cons, if_neg (by rw [hfk]; simp), if_pos hfk, e1,
      skipNl_to ha c (by rw [hc]; simp), expect_cons hc (by rw [hvs]; simp)]
    simp only [bind, Except.bind]
    have hl : vs.length ≤ fuel := by
      have := hf; simp only [List.length_append, List.length_cons] at this; omega
    rw [e2, parseVal_toks hv (m ++ tl) (by simp [htl]) fuel hl]
    rfl

theorem parseFields_toks {env : Env} {fs : List (Str × OutVal)} {ts : List Token} (h : FieldsToks env fs ts) (d : Dict Str OutVal) (x : Token) (hx : x.kind = .outClose)
    (tl : List Token) (fuel : Nat) (hf : ts.length < fuel) :
    parseFields env fuel d (ts ++ x :: tl) = .ok (fs.foldl (fun d fv => d.set fv.1 fv.2) d, x :: tl) := by
  have hclose : ∀ (fuel : Nat) (n : List Token) (d : Dict Str OutVal), Newlines n → parseFields env (fuel + 1) d (n ++ x :: tl) = .ok (d, x :: tl) := by
    intro fuel n d hn
    rw [parseFields, skipNl_to hn x (by rw [hx]; simp), cur_cons, if_pos (Or.inl hx)]
  induction h generalizing d fuel with
  | nil n hn =>
    cases fuel with
    | zero => omega
    | succ fuel => exact hclose fuel n d hn
  | last fv ts hfv =>
    cases fuel with
    | zero => omega
    | succ fuel =>
      obtain ⟨m, hm, e⟩ := parseFields_field hfv d (x :: tl) (by simp) fuel (by omega)
      rw [e, sepOut_close hm x hx]
      cases fuel with
      | zero => cases hfv; simp at hf
      | succ fuel =>
        have := hclose fuel [] (d.set fv.1 fv.2) (by intro t ht; simp at ht)
        rw [List.nil_append] at this
        rw [this]; rfl
  | cons fv ts c fs ts' hfv hc hfs ih =>
    cases fuel with
    | zero => omega
    | succ fuel =>
      have e0 : ts ++ c :: ts' ++ x :: tl = ts ++ (c :: (ts' ++ x :: tl)) := by simp
      obtain ⟨m, hm, e⟩ := parseFields_field hfv d (c :: (ts' ++ x :: tl)) (by simp) fuel (by simp at hf; omega)
      rw [e0, e, sepOut_comma hm c hc _ (by simp), ih _ fuel (by simp at hf; omega)]
      rfl

/-- C49: a well-formed block yields exactly its fields with their values (later duplicates replacing earlier ones), and what follows the closing brace is left untouched. -/
theorem C49_wellformed {env : Env} {fs : List (Str × OutVal)} {ts : List Token} (h : FieldsToks env fs ts) (o x : Token) (ho : o.kind = .outOpen) (hx : x.kind = .outClose)
    (tl : List Token) (htl : tl ≠ []) :
    parseOut env (o :: (ts ++ x :: tl)) = .ok (fs.foldl (fun d fv => d.set fv.1 fv.2) [], tl) := by
  have key : ∀ (fuel : Nat) d, parseFields env fuel d (skipNl (ts ++ x :: tl)) = parseFields env fuel d (ts ++ x :: tl) := by
    have idem : ∀ l : List Token, skipNl (skipNl l) = skipNl l := by
      intro l
      induction l with
      | nil => rfl
      | cons t l ih =>
        cases l with
        | nil => rfl
        | cons u l =>
          rw [skipNl]
          split
          · exact ih
          · next h => rw [skipNl, if_neg h]
    intro fuel d
    cases fuel with
    | zero => rfl
    | succ fuel => rw [parseFields, parseFields, idem]
  unfold parseOut
  rw [expect_cons ho (by simp)]
  simp only [bind, Except.bind]
  rw [key, parseFields_toks h [] x hx tl _ (by simp; omega)]
  simp only [cur_cons, hx, if_true]
  rw [adv_cons x htl]

/-- C49: the value of each field is the last one given for it. -/
theorem C49_last_wins (fs : List (Str × OutVal)) (f : Str) :
    Dict.get? (fs.foldl (fun d fv => Dict.set d fv.1 fv.2) []) f = ((fs.reverse.find? (fun fv => fv.1 == f)).map Prod.snd) := by
  have key : ∀ (rs : List (Str × OutVal)),
      Dict.get? (rs.reverse.foldl (fun d fv => Dict.set d fv.1 fv.2) []) f = ((rs.find? (fun fv => fv.1 == f)).map Prod.snd) := by
    intro rs
    induction rs with
    | nil => rfl
    | cons x rs ih =>
      rw [List.reverse_cons, List.foldl_append, List.foldl_cons, List.foldl_nil, Dict.get?_set, ih, List.find?_cons]
      by_cases h : x.1 = f
      · have hb : (x.1 == f) = true := by rw [h]; exact beq_self_eq_true f
        simp [h, hb]
      · have hb : (x.1 == f) = false := by
          rw [beq_eq_false_iff_ne]; exact h
        simp [h, hb]
  have := key fs.reverse
  rw [List.reverse_reverse] at this
  exact this

/-- C49: parsing any text terminates. -/
theorem C49_total {cc : CharClass} (ok : cc.Ok) (env : Env) (src : Str) : parseText cc env src ≠ .error .fuel := by
  unfold parseText
  obtain ⟨ts, offs, h1, h2, _⟩ := C45_faithful ok src
  rw [h1]
  simp only
  intro he
  rcases parseLoop_err env src _ _ _ ts h2 (by omega) _ he with h | ⟨h, _⟩ <;> cases h

/-- Non-vacuity: references, a number, a boolean, a string, a repeated field, and text after the block. -/
example : parseText asciiClass asciiEnv "OUT{a: [x, y,], n: -3.5,\n b: True, s: 'q', a: z} rest: [w]".toList =
    .ok ⟨[], [], some [(['a'], .refs [['z']]), (['n'], .num "-3.5".toList), (['b'], .bool true), (['s'], .str ['q'])]⟩ := by decide +kernel

/-! ### C104: the closing brace ends the block -/

/-- A field without a value makes the parser skip the closing brace: the text after the block is parsed as further fields. -/
theorem C104_empty_value_violation :
    parseText asciiClass asciiEnv "OUT{a: [x], b: } note: ok".toList =
      .ok ⟨[], [], some [(['a'], .refs [['x']]), ("note".toList, .refs [['o', 'k']])]⟩ := by decide +kernel

/-- C104, where it holds: for well-formed blocks the result does not depend on the text after the closing brace. -/
theorem C104_wellformed_partial {env : Env} {fs : List (Str × OutVal)} {ts : List Token} (h : FieldsToks env fs ts) (o x : Token) (ho : o.kind = .outOpen)
    (hx : x.kind = .outClose) (tl tl' : List Token) (htl : tl ≠ []) (htl' : tl' ≠ []) :
    (parseOut env (o :: (ts ++ x :: tl))).map Prod.fst = (parseOut env (o :: (ts ++ x :: tl'))).map Prod.fst := by
  rw [C49_wellformed h o x ho hx tl htl, C49_wellformed h o x ho hx tl' htl']
  rfl

/-! ### C105: rejected texts raise `ParseError` -/

/-- A number with two dots raises `ValueError`, which is no `ParseError`. -/
theorem C105_number_violation : parseText asciiClass asciiEnv "OUT{a: 1.2.3}".toList = .error .value := by decide +kernel

/-- C105, where it holds: if `int`/`float` accept every number token, every failure is a `ParseError`. -/
theorem C105_parse_errors_partial {cc : CharClass} (ok : cc.Ok) (env : Env) (src : Str)
    (hnum : ∀ ts, tokenize cc src = some ts → ∀ t ∈ ts, t.kind = .num → env.numOk t.value = true) (e : PErr) (h : parseText cc env src = .error e) : e = .parse := by
  unfold parseText at h
  obtain ⟨ts, offs, h1, h2, _⟩ := C45_faithful ok src
  rw [h1] at h
  simp only at h
  rcases parseLoop_err env src _ _ _ ts h2 (by omega) _ h with h | ⟨_, t, ht, hk, hno⟩
  · exact h
  · rw [hnum ts h1 t ht hk] at hno; cases hno

/-- C105 (partial), every text: a failure is a `ParseError`, or a `ValueError` that comes from a number token of the text which `int`/`float` does not accept. -/
theorem C105_failures_partial {cc : CharClass} (ok : cc.Ok) (env : Env) (src : Str) (e : PErr) (h : parseText cc env src = .error e) :
    e = .parse ∨ (e = .value ∧ ∃ ts, tokenize cc src = some ts ∧ ∃ t ∈ ts, t.kind = .num ∧ env.numOk t.value = false) := by
  unfold parseText at h
  obtain ⟨ts, offs, h1, h2, _⟩ := C45_faithful ok src
  rw [h1] at h
  simp only at h
  rcases parseLoop_err env src _ _ _ ts h2 (by omega) _ h with h | ⟨he, t, ht, hk, hno⟩
  · exact .inl h
  · exact .inr ⟨he, ts, h1, t, ht, hk, hno⟩

/-- Non-vacuity: a text with a number that is rejected with a parse error. -/
example : parseText asciiClass asciiEnv "OUT{a: 1.2, b [c]}".toList = .error .parse := by decide +kernel

end Verif.Parser
