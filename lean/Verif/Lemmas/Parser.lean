import Verif.Model.Parser
import Verif.Props.Lexer

/-!
# Lemmas about the LNDL parser: termination and the tokens that remain
-/

set_option linter.unusedSectionVars false
set_option linter.unusedSimpArgs false
set_option linter.unusedVariables false

namespace Verif.Parser

open Verif.Lexer

/-- A token stream as produced by the lexer: one `EOF`, at the end. -/
def Closed (ts : List Token) : Prop := ∃ init last, ts = init ++ [last] ∧ last.kind = .eof ∧ ∀ x ∈ init, x.kind ≠ .eof

theorem Closed.ne_nil {ts : List Token} (h : Closed ts) : ts ≠ [] := by
  obtain ⟨i, l, rfl, _⟩ := h; simp

/-- `r` is what remains of `ts`. -/
def Suf (r ts : List Token) : Prop := r <:+ ts ∧ r ≠ []

theorem Closed.suf {ts r : List Token} (h : Closed ts) (hs : Suf r ts) : Closed r := by
  obtain ⟨i, l, rfl, h1, h2⟩ := h
  obtain ⟨⟨pre, hp⟩, hne⟩ := hs
  rcases List.eq_nil_or_concat r with h | ⟨r', x, h⟩
  · exact absurd h hne
  · rw [List.concat_eq_append] at h
    rw [h, ← List.append_assoc] at hp
    obtain ⟨e1, e2⟩ := List.append_inj' hp rfl
    cases e2
    subst e1
    exact ⟨r', _, h, h1, fun y hy => h2 y (List.mem_append_right _ hy)⟩

theorem Suf.trans {a b c : List Token} (h1 : Suf a b) (h2 : Suf b c) : Suf a c := ⟨h1.1.trans h2.1, h1.2⟩

theorem Suf.refl {a : List Token} (h : a ≠ []) : Suf a a := ⟨List.suffix_refl _, h⟩

theorem Suf.len {a b : List Token} (h : Suf a b) : a.length ≤ b.length := h.1.length_le

theorem adv_suf {ts : List Token} (h : ts ≠ []) : Suf (adv ts) ts := by
  match ts with
  | [] => exact absurd rfl h
  | [t] => exact Suf.refl (a := [t]) (by simp)
  | t :: u :: r => exact ⟨List.suffix_cons _ _, by simp [adv]⟩

theorem skipNl_suf {ts : List Token} (h : ts ≠ []) : Suf (skipNl ts) ts := by
  induction ts with
  | nil => exact absurd rfl h
  | cons t r ih =>
    cases r with
    | nil => exact Suf.refl (a := [t]) (by simp)
    | cons u r =>
      rw [skipNl]
      split
      · exact (ih (by simp)).trans ⟨List.suffix_cons _ _, by simp⟩
      · exact Suf.refl (by simp)

theorem Closed.tail {t u : Token} {r : List Token} (h : Closed (t :: u :: r)) : t.kind ≠ .eof := by
  obtain ⟨i, l, e, h1, h2⟩ := h
  cases i with
  | nil => simp at e
  | cons x i =>
    simp at e
    rw [e.1]; exact h2 x (by simp)

/-- Advancing over a token that is not `EOF` consumes it. -/
theorem adv_lt {ts : List Token} (h : Closed ts) (hc : cur ts ≠ .eof) : (adv ts).length < ts.length := by
  match ts with
  | [] => exact absurd rfl h.ne_nil
  | [t] =>
    obtain ⟨i, l, e, h1, h2⟩ := h
    cases i with
    | nil => simp at e; rw [e] at hc; exact absurd h1 hc
    | cons x i => simp at e
  | t :: u :: r => simp [adv]

theorem cur_skipNl {ts : List Token} (h : Closed ts) : cur (skipNl ts) ≠ .newline := by
  induction ts with
  | nil => exact absurd rfl h.ne_nil
  | cons t r ih =>
    cases r with
    | nil =>
      obtain ⟨i, l, e, h1, h2⟩ := h
      cases i with
      | nil => simp at e; rw [e]; simp [skipNl, cur, h1]
      | cons x i => simp at e
    | cons u r =>
      rw [skipNl]
      split
      · exact ih (h.suf ⟨List.suffix_cons _ _, by simp⟩)
      · next hk => exact hk

/-- How a step may fail: a parse error; or a `ValueError`, only if a number of the stream is not accepted by `int`/`float`. -/
def ErrOk (env : Env) (ts : List Token) (e : PErr) : Prop :=
  e = .parse ∨ (e = .value ∧ ∃ t ∈ ts, t.kind = .num ∧ env.numOk t.value = false)

theorem ErrOk.mono {env : Env} {r ts : List Token} {e : PErr} (h : ErrOk env r e) (hs : Suf r ts) : ErrOk env ts e := by
  rcases h with h | ⟨h, t, ht, h2⟩
  · exact Or.inl h
  · exact Or.inr ⟨h, t, hs.1.subset ht, h2⟩

theorem expect_cases {k : Kind} {ts : List Token} (h : ts ≠ []) :
    (cur ts = k ∧ expect k ts = .ok (curVal ts, adv ts)) ∨ (cur ts ≠ k ∧ expect k ts = .error .parse) := by
  unfold expect
  by_cases hk : cur ts = k
  · exact Or.inl ⟨hk, if_pos hk⟩
  · exact Or.inr ⟨hk, if_neg hk⟩

theorem skipTo_cases (k : Kind) (ts : List Token) :
    skipTo k ts = .error .parse ∨ ∃ r, skipTo k ts = .ok r ∧ Suf r ts := by
  induction ts with
  | nil => exact Or.inl rfl
  | cons t r ih =>
    rw [skipTo]
    split
    · exact Or.inr ⟨_, rfl, adv_suf (by simp)⟩
    · split
      · exact Or.inl rfl
      · rcases ih with h | ⟨r', h, hs⟩
        · exact Or.inl h
        · exact Or.inr ⟨r', h, hs.trans ⟨List.suffix_cons _ _, by
            intro e; subst e
            exact hs.2 (List.suffix_nil.1 hs.1)⟩⟩

theorem parseField_cases {m : Str} {ts : List Token} (h : ts ≠ []) :
    parseField m ts = .error .parse ∨ ∃ x r, parseField m ts = .ok (x, r) ∧ Suf r ts := by
  unfold parseField
  rcases expect_cases (k := .ident) h with ⟨_, e⟩ | ⟨_, e⟩
  · rw [e]
    simp only [bind, Except.bind]
    have hs := adv_suf h
    split
    · exact Or.inr ⟨_, _, rfl, (adv_suf hs.2).trans hs⟩
    · exact Or.inr ⟨_, _, rfl, hs⟩
  · rw [e]; exact Or.inl rfl

theorem parseNames_cases {ts : List Token} (h : ts ≠ []) :
    parseNames ts = .error .parse ∨ ∃ x r, parseNames ts = .ok (x, r) ∧ Suf r ts := by
  unfold parseNames
  have hn := skipNl_suf h
  rcases expect_cases (k := .ident) hn.2 with ⟨_, e⟩ | ⟨_, e⟩
  · rw [e]
    simp only [bind, Except.bind]
    have hs := adv_suf hn.2
    split
    · have hs2 := adv_suf hs.2
      rcases parseField_cases (m := curVal (skipNl ts)) hs2.2 with e | ⟨x, r, e, h3⟩
      · exact Or.inl e
      · exact Or.inr ⟨x, r, e, h3.trans (hs2.trans (hs.trans hn))⟩
    · exact Or.inr ⟨_, _, rfl, hs.trans hn⟩
  · rw [e]; exact Or.inl rfl

/-- A declaration either fails with a parse error, or consumes at least its opening token and has the content found in the source text. -/
theorem parseDecl_cases (env : Env) (src : Str) (act : Bool) {ts : List Token} (h : Closed ts) :
    parseDecl env src act ts = .error .parse ∨
      ∃ d r, parseDecl env src act ts = .ok (d, r) ∧ Suf r ts ∧ r.length < ts.length ∧ contentOf env src act d.header = some d.content := by
  unfold parseDecl
  rcases expect_cases (k := openKind act) h.ne_nil with ⟨hk, e⟩ | ⟨_, e⟩
  · rw [e]
    simp only [bind, Except.bind]
    have hs := adv_suf h.ne_nil
    have hlt : (adv ts).length < ts.length := adv_lt h (by rw [hk]; cases act <;> simp [openKind])
    rcases parseNames_cases hs.2 with e | ⟨x, r, e, h3⟩
    · rw [e]; exact Or.inl rfl
    · rw [e]
      simp only
      rcases expect_cases (k := .gt) h3.2 with ⟨_, e⟩ | ⟨_, e⟩
      · rw [e]
        simp only
        cases hc : contentOf env src act x with
        | none => exact Or.inl rfl
        | some c =>
          simp only
          have h4 := adv_suf h3.2
          have h5 := skipNl_suf h4.2
          rcases skipTo_cases (closeKind act) (skipNl (adv r)) with e | ⟨r', e, h6⟩
          · rw [e]; exact Or.inl rfl
          · rw [e]
            have h7 := h6.trans (h5.trans (h4.trans h3))
            exact Or.inr ⟨⟨x, c⟩, r', rfl, h7.trans hs, Nat.lt_of_le_of_lt h7.len hlt, hc⟩
      · rw [e]; exact Or.inl rfl
  · rw [e]; exact Or.inl rfl

/-! ### OUT block -/

theorem parseRefs_cases (fuel : Nat) (ts : List Token) (h : Closed ts) (hf : ts.length < fuel) :
    parseRefs fuel ts = .error .parse ∨ ∃ rs r, parseRefs fuel ts = .ok (rs, r) ∧ Suf r ts := by
  induction fuel generalizing ts with
  | zero => omega
  | succ fuel ih =>
    rw [parseRefs]
    have hn := skipNl_suf h.ne_nil
    have hnc := h.suf hn
    split
    · exact Or.inr ⟨_, _, rfl, hn⟩
    · split
      · next h1 h2 =>
        have h3 := adv_suf hn.2
        have hlt := adv_lt hnc (by rw [h2]; simp)
        have h4 := skipNl_suf h3.2
        have h5 : Suf (if cur (skipNl (adv (skipNl ts))) = .comma then adv (skipNl (adv (skipNl ts))) else skipNl (adv (skipNl ts))) (adv (skipNl ts)) := by
          split
          · exact (adv_suf h4.2).trans h4
          · exact h4
        have h6 := h5.trans (h3.trans hn)
        generalize (if cur (skipNl (adv (skipNl ts))) = .comma then adv (skipNl (adv (skipNl ts))) else skipNl (adv (skipNl ts))) = nx at h5 h6
        have l1 := h5.len
        have l2 := hn.len
        rcases ih nx (h.suf h6) (by omega) with e | ⟨rs, r, e, hs⟩
        · rw [e]; exact Or.inl rfl
        · rw [e]; exact Or.inr ⟨_, _, rfl, hs.trans h6⟩
      · exact Or.inl rfl

theorem curVal_mem {ts : List Token} (h : ts ≠ []) : ∃ t ∈ ts, t.kind = cur ts ∧ t.value = curVal ts := by
  cases ts with
  | nil => exact absurd rfl h
  | cons t r => exact ⟨t, by simp, rfl, rfl⟩

theorem parseVal_cases (env : Env) (fuel : Nat) (ts : List Token) (h : Closed ts) (hf : ts.length < fuel) :
    (∃ e, parseVal env fuel ts = .error e ∧ ErrOk env ts e) ∨ ∃ v r, parseVal env fuel ts = .ok (v, r) ∧ Suf r ts := by
  have ha := adv_suf h.ne_nil
  unfold parseVal
  split
  · have hn := skipNl_suf ha.2
    have h1 := hn.trans ha
    have l1 := h1.len
    rcases parseRefs_cases fuel (skipNl (adv ts)) (h.suf h1) (by omega) with e | ⟨rs, r, e, hs⟩
    · rw [e]; exact Or.inl ⟨_, rfl, Or.inl rfl⟩
    · rw [e]
      refine Or.inr ⟨_, _, rfl, ?_⟩
      show Suf (if cur r = .rbracket then adv r else r) ts
      split
      · exact (adv_suf hs.2).trans (hs.trans h1)
      · exact hs.trans h1
  · exact Or.inr ⟨_, _, rfl, ha⟩
  · next hk =>
    split
    · exact Or.inr ⟨_, _, rfl, ha⟩
    · next hno =>
      obtain ⟨t, ht, h1, h2⟩ := curVal_mem h.ne_nil
      exact Or.inl ⟨_, rfl, Or.inr ⟨rfl, t, ht, h1.trans hk, by rw [h2]; exact Bool.eq_false_iff.2 hno⟩⟩
  · exact Or.inr ⟨_, _, rfl, ha⟩
  · exact Or.inr ⟨_, _, rfl, ha⟩

theorem sepOut_suf {ts : List Token} (h : ts ≠ []) : Suf (sepOut ts) ts := by
  unfold sepOut
  have hn := skipNl_suf h
  split
  · exact (adv_suf hn.2).trans hn
  · exact hn

theorem parseFields_cases (env : Env) (fuel : Nat) (d : Dict Str OutVal) (ts : List Token) (h : Closed ts) (hf : ts.length < fuel) :
    (∃ e, parseFields env fuel d ts = .error e ∧ ErrOk env ts e) ∨ ∃ v r, parseFields env fuel d ts = .ok (v, r) ∧ Suf r ts := by
  induction fuel generalizing d ts with
  | zero => omega
  | succ fuel ih =>
    rw [parseFields]
    have hn := skipNl_suf h.ne_nil
    have hnc := h.suf hn
    have hnl := hn.len
    split
    · exact Or.inr ⟨_, _, rfl, hn⟩
    · next hend =>
      rw [not_or] at hend
      have h3 := adv_suf hn.2
      have hlt := adv_lt hnc hend.2
      split
      · next hid =>
        have h4 := skipNl_suf h3.2
        rcases expect_cases (k := .colon) h4.2 with ⟨_, e⟩ | ⟨_, e⟩
        · rw [e]
          simp only [bind, Except.bind]
          have h5 := adv_suf h4.2
          have h6 := skipNl_suf h5.2
          have h7 := (h6.trans (h5.trans (h4.trans h3)))
          have h8 := h7.trans hn
          have l8 := (h6.trans (h5.trans h4)).len
          rcases parseVal_cases env fuel (skipNl (adv (skipNl (adv (skipNl ts))))) (h.suf h8) (by omega) with ⟨e', e, he⟩ | ⟨v, r, e, hs⟩
          · rw [e]; exact Or.inl ⟨_, rfl, he.mono h8⟩
          · rw [e]
            simp only
            have h9 := (sepOut_suf hs.2).trans hs
            have l9 := h9.len
            rcases ih (setOpt d (curVal (skipNl ts)) v) (sepOut r) (h.suf (h9.trans h8)) (by omega) with ⟨e', e, he⟩ | ⟨v, r', e, hs'⟩
            · exact Or.inl ⟨_, e, he.mono (h9.trans h8)⟩
            · exact Or.inr ⟨_, _, e, hs'.trans (h9.trans h8)⟩
        · rw [e]; exact Or.inl ⟨_, rfl, Or.inl rfl⟩
      · have h4 := h3.trans hn
        rcases ih d (adv (skipNl ts)) (h.suf h4) (by omega) with ⟨e', e, he⟩ | ⟨v, r', e, hs'⟩
        · exact Or.inl ⟨_, e, he.mono h4⟩
        · exact Or.inr ⟨_, _, e, hs'.trans h4⟩

theorem parseOut_cases (env : Env) (ts : List Token) (h : Closed ts) :
    (∃ e, parseOut env ts = .error e ∧ ErrOk env ts e) ∨ ∃ v r, parseOut env ts = .ok (v, r) ∧ Suf r ts := by
  unfold parseOut
  rcases expect_cases (k := .outOpen) h.ne_nil with ⟨_, e⟩ | ⟨_, e⟩
  · rw [e]
    simp only [bind, Except.bind]
    have h1 := adv_suf h.ne_nil
    have h2 := (skipNl_suf h1.2).trans h1
    have l2 := h2.len
    rcases parseFields_cases env (ts.length + 1) [] (skipNl (adv ts)) (h.suf h2) (by omega) with ⟨e', e, he⟩ | ⟨v, r, e, hs⟩
    · rw [e]; exact Or.inl ⟨_, rfl, he.mono h2⟩
    · rw [e]
      refine Or.inr ⟨_, _, rfl, ?_⟩
      show Suf (if cur r = .outClose then adv r else r) ts
      split
      · exact (adv_suf hs.2).trans (hs.trans h2)
      · exact hs.trans h2
  · rw [e]; exact Or.inl ⟨_, rfl, Or.inl rfl⟩

/-- The loop of `parse` ends, and fails only as described by `ErrOk`. -/
theorem parseLoop_err (env : Env) (src : Str) (fuel : Nat) (al : List Str) (p : Program) (ts : List Token) (h : Closed ts) (hf : ts.length < fuel) :
    ∀ e, parseLoop env src fuel al p ts = .error e → ErrOk env ts e := by
  induction fuel generalizing al p ts with
  | zero => omega
  | succ fuel ih =>
    intro e
    rw [parseLoop]
    have hn := skipNl_suf h.ne_nil
    have hnc := h.suf hn
    have hnl := hn.len
    have hdecl : ∀ act, (do
          let (d, r) ← parseDecl env src act (skipNl ts)
          if d.header.alias ∈ al then .error .parse
          else parseLoop env src fuel (d.header.alias :: al) (addDecl act d p) r) = .error e → ErrOk env ts e := by
      intro act he
      rcases parseDecl_cases env src act hnc with e1 | ⟨d, r, e1, hs, hlt, _⟩
      · rw [e1] at he; cases he; exact Or.inl rfl
      · rw [e1] at he
        simp only [bind, Except.bind] at he
        split at he
        · cases he; exact Or.inl rfl
        · exact (ih _ _ r (h.suf (hs.trans hn)) (by omega) e he).mono (hs.trans hn)
    split
    · intro he; cases he
    · next hne =>
      split
      · exact hdecl false
      · split
        · exact hdecl true
        · split
          · rcases parseOut_cases env (skipNl ts) hnc with ⟨e1, e2, he1⟩ | ⟨v, r, e2, _⟩
            · intro he; rw [e2] at he; cases he; exact he1.mono hn
            · intro he; rw [e2] at he; cases he
          · intro he
            have h3 := adv_suf hn.2
            have hlt := adv_lt hnc hne
            exact (ih al p _ (h.suf (h3.trans hn)) (by omega) e he).mono (h3.trans hn)

end Verif.Parser
