import Verif.Model.FuzzyJson

set_option linter.unusedSectionVars false
set_option linter.unusedSimpArgs false
set_option linter.unusedVariables false

namespace Verif.FuzzyJson

/-! ## C70: `fix_json_string` -/

/-! ### Specification -/

/-- The characters outside double-quoted strings; a backslash hides the character after it.  The flag: inside a string. -/
def outside : Bool → Str → Str
  | _, [] => []
  | _, ['\\'] => []
  | q, '\\' :: _ :: s => outside q s
  | q, '"' :: s => outside (!q) s
  | true, _ :: s => outside true s
  | false, c :: s => c :: outside false s

/-- The text ends outside strings, and not with a backslash that hides what may follow. -/
def endsOutside : Bool → Str → Bool
  | q, [] => !q
  | _, ['\\'] => false
  | q, '\\' :: _ :: s => endsOutside q s
  | q, '"' :: s => endsOutside (!q) s
  | q, _ :: s => endsOutside q s

/-- The brackets outside strings. -/
def brackets (s : Str) : Str := (outside false s).filter (fun c => decide (c ∈ ['{', '}', '[', ']']))

/-- Bracket words in which every bracket is closed by its partner. -/
inductive Balanced : Str → Prop
  | nil : Balanced []
  | brace {u v : Str} : Balanced u → Balanced v → Balanced ('{' :: u ++ '}' :: v)
  | square {u v : Str} : Balanced u → Balanced v → Balanced ('[' :: u ++ ']' :: v)

def IsClosing (c : Str) : Prop := ∀ x ∈ c, x = '}' ∨ x = ']'

/-! ### Auxiliary lemmas -/

/-- Running the stack over bracket characters. -/
def runB : Str → Str → Except Exc Str
  | st, [] => .ok st
  | st, c :: s =>
    match bracket c st with
    | .error e => .error e
    | .ok st' => runB st' s

theorem runB_append : ∀ (u v st st' : Str), runB st u = .ok st' → runB st (u ++ v) = runB st' v
  | [], v, st, st', h => by simp only [runB] at h; injection h with h; rw [h]; rfl
  | c :: u, v, st, st', h => by
    simp only [runB, List.cons_append] at h ⊢
    cases hb : bracket c st with
    | error e => rw [hb] at h; cases h
    | ok st1 => rw [hb] at h; exact runB_append u v st1 st' h

theorem runB_append_error : ∀ (u v st : Str) (e : Exc), runB st u = .error e → runB st (u ++ v) = .error e
  | [], v, st, e, h => by cases h
  | c :: u, v, st, e, h => by
    simp only [runB, List.cons_append] at h ⊢
    cases hb : bracket c st with
    | error e' => rw [hb] at h; exact h
    | ok st1 => rw [hb] at h; exact runB_append_error u v st1 e h

theorem bracket_other {c : Char} (h : c ∉ ['{', '}', '[', ']']) (st : Str) : bracket c st = .ok st := by
  simp only [List.mem_cons, List.not_mem_nil, or_false, not_or] at h
  have h1 : closer c = none := by
    unfold closer; split
    · exact absurd rfl h.1
    · exact absurd rfl h.2.2.1
    · rfl
  have h2 : isCloser c = false := by simp [isCloser, h.2.1, h.2.2.2]
  simp [bracket, h1, h2]

theorem bracket_error {c : Char} {st : Str} {e : Exc} (h : bracket c st = .error e) : e = .valueError := by
  unfold bracket at h
  split at h
  · cases h
  · split at h
    · split at h
      · injection h with h; exact h.symm
      · split at h
        · injection h with h; exact h.symm
        · cases h
    · cases h

theorem runB_error : ∀ (u st : Str) (e : Exc), runB st u = .error e → e = .valueError
  | [], st, e, h => by cases h
  | c :: u, st, e, h => by
    simp only [runB] at h
    cases hb : bracket c st with
    | error e' => rw [hb] at h; injection h with h; rw [← h]; exact bracket_error hb
    | ok st1 => rw [hb] at h; exact runB_error u st1 e h

theorem runB_filter : ∀ (u st : Str), runB st (u.filter (fun c => decide (c ∈ ['{', '}', '[', ']']))) = runB st u
  | [], st => rfl
  | c :: u, st => by
    by_cases h : c ∈ ['{', '}', '[', ']']
    · rw [List.filter_cons, if_pos (decide_eq_true h)]
      simp only [runB]
      cases hb : bracket c st with
      | error e => rfl
      | ok st1 => exact runB_filter u st1
    · rw [List.filter_cons, if_neg (by simpa using h)]
      simp only [runB, bracket_other h]
      exact runB_filter u st

def modeOf : Bool → Mode
  | true => .str
  | false => .out

/-- The stack after scanning depends on the characters outside strings only. -/
theorem scan_eq (q : Bool) (s st : Str) :
    (∀ e, runB st (outside q s) = .error e → scan (modeOf q) st s = .error e) ∧
    (∀ st', runB st (outside q s) = .ok st' → ∃ m, scan (modeOf q) st s = .ok (m, st') ∧ (endsOutside q s = true → m = .out)) := by
  induction q, s using outside.induct generalizing st with
  | case1 q =>
    refine ⟨(fun e h => by simp only [outside, runB] at h; cases h), fun st' h => ?_⟩
    simp only [outside, runB] at h
    injection h with h
    subst h
    refine ⟨modeOf q, by cases q <;> rfl, ?_⟩
    cases q <;> simp [endsOutside, modeOf]
  | case2 q =>
    refine ⟨(fun e h => by simp only [outside, runB] at h; cases h), fun st' h => ?_⟩
    simp only [outside, runB] at h
    injection h with h
    subst h
    cases q
    · exact ⟨.outEsc, rfl, by simp [endsOutside]⟩
    · exact ⟨.strEsc, rfl, by simp [endsOutside]⟩
  | case3 q c s ih =>
    simp only [outside, endsOutside]
    have : scan (modeOf q) st ('\\' :: c :: s) = scan (modeOf q) st s := by cases q <;> rfl
    rw [this]; exact ih st
  | case4 q s ih =>
    have h1 : outside q ('"' :: s) = outside (!q) s := by cases q <;> simp [outside]
    have h2 : endsOutside q ('"' :: s) = endsOutside (!q) s := by cases q <;> simp [endsOutside]
    have : scan (modeOf q) st ('"' :: s) = scan (modeOf (!q)) st s := by cases q <;> rfl
    rw [h1, h2, this]; exact ih st
  | case5 c s h1 h2 h3 ih =>
    have hc : c ≠ '\\' := by
      intro e; subst e
      cases s with
      | nil => exact h1 rfl rfl
      | cons a s => exact h2 a s rfl rfl
    have hq : c ≠ '"' := fun e => h3 e
    have e1 : outside true (c :: s) = outside true s := by
      rw [outside]
      · exact fun e1 e2 => hc e1
      · exact fun a b e1 e2 => hc e1
      · exact hq
    have e2 : endsOutside true (c :: s) = endsOutside true s := by
      rw [endsOutside]
      · exact fun e1 e2 => hc e1
      · exact fun a b e1 e2 => hc e1
      · exact hq
    have e3 : scan (modeOf true) st (c :: s) = scan (modeOf true) st s := by
      simp [scan, modeOf, strMode, hc, hq]
    rw [e1, e2, e3]; exact ih st
  | case6 c s h1 h2 h3 ih =>
    have hc : c ≠ '\\' := by
      intro e; subst e
      cases s with
      | nil => exact h1 rfl rfl
      | cons a s => exact h2 a s rfl rfl
    have hq : c ≠ '"' := fun e => h3 e
    have e1 : outside false (c :: s) = c :: outside false s := by
      rw [outside]
      · exact fun e1 e2 => hc e1
      · exact fun a b e1 e2 => hc e1
      · exact hq
    have e2 : endsOutside false (c :: s) = endsOutside false s := by
      rw [endsOutside]
      · exact fun e1 e2 => hc e1
      · exact fun a b e1 e2 => hc e1
      · exact hq
    rw [e1, e2]
    simp only [runB, scan, modeOf, outMode, hc, hq, if_false]
    cases hb : bracket c st with
    | error e' => exact ⟨fun e h => by simpa using h, fun st' h => by cases h⟩
    | ok st1 => exact ih st1

theorem fixJson_eq (s : Str) (h : s ≠ []) :
    fixJson s = (match runB [] (brackets s) with | .error e => .error e | .ok st => .ok (s ++ st)) := by
  have hs := scan_eq false s []
  simp only [fixJson, List.isEmpty_iff, h, if_false, brackets, runB_filter]
  cases hr : runB [] (outside false s) with
  | error e =>
    have := hs.1 e hr
    simp only [modeOf] at this
    rw [this]
  | ok st =>
    obtain ⟨m, hm, _⟩ := hs.2 st hr
    simp only [modeOf] at hm
    rw [hm]

theorem balanced_append {u v : Str} (hu : Balanced u) (hv : Balanced v) : Balanced (u ++ v) := by
  induction hu with
  | nil => exact hv
  | @brace a b _ _ iha ihb => simpa using Balanced.brace (u := a) ‹_› ihb
  | @square a b _ _ iha ihb => simpa using Balanced.square (u := a) ‹_› ihb

theorem balanced_run {u : Str} (hu : Balanced u) : ∀ st, runB st u = .ok st := by
  induction hu with
  | nil => intro st; rfl
  | @brace a b _ _ iha ihb =>
    intro st
    have : runB st ('{' :: a ++ '}' :: b) = runB ('}' :: st) (a ++ '}' :: b) := rfl
    rw [this, runB_append a _ _ _ (iha _)]
    have : runB ('}' :: st) ('}' :: b) = runB st b := rfl
    rw [this, ihb]
  | @square a b _ _ iha ihb =>
    intro st
    have : runB st ('[' :: a ++ ']' :: b) = runB (']' :: st) (a ++ ']' :: b) := rfl
    rw [this, runB_append a _ _ _ (iha _)]
    have : runB (']' :: st) (']' :: b) = runB st b := rfl
    rw [this, ihb]

/-- A word that closes the expected brackets one after the other, with balanced words between. -/
inductive BalFrom : Str → Str → Prop
  | nil {u : Str} : Balanced u → BalFrom [] u
  | cons {d : Char} {st u v : Str} : Balanced u → BalFrom st v → BalFrom (d :: st) (u ++ d :: v)

theorem balFrom_prepend {a st v : Str} (ha : Balanced a) (h : BalFrom st v) : BalFrom st (a ++ v) := by
  cases h with
  | nil hu => exact .nil (balanced_append ha hu)
  | @cons d st u v hu hv => rw [← List.append_assoc]; exact .cons (balanced_append ha hu) hv

theorem bracket_cases {c : Char} (hc : c ∈ ['{', '}', '[', ']']) {st st' : Str} (h : bracket c st = .ok st') :
    (c = '{' ∧ st' = '}' :: st) ∨ (c = '[' ∧ st' = ']' :: st) ∨ ((c = '}' ∨ c = ']') ∧ st = c :: st') := by
  simp only [List.mem_cons, List.not_mem_nil, or_false] at hc
  have popCase : ∀ c : Char, closer c = none → isCloser c = true → bracket c st = .ok st' → st = c :: st' := by
    intro c h1 h2 h
    simp only [bracket, h1, h2, if_true] at h
    cases st with
    | nil => cases h
    | cons d ds =>
      simp only at h
      split at h
      · cases h
      · rename_i hd
        injection h with h
        rw [h, Classical.not_not.1 hd]
  rcases hc with rfl | rfl | rfl | rfl
  · injection h with h; exact Or.inl ⟨rfl, h.symm⟩
  · exact Or.inr (Or.inr ⟨Or.inl rfl, popCase _ rfl rfl h⟩)
  · injection h with h; exact Or.inr (Or.inl ⟨rfl, h.symm⟩)
  · exact Or.inr (Or.inr ⟨Or.inr rfl, popCase _ rfl rfl h⟩)

theorem run_balFrom : ∀ (w st : Str), (∀ c ∈ w, c ∈ ['{', '}', '[', ']']) → runB st w = .ok [] → BalFrom st w
  | [], st, _, h => by
    simp only [runB] at h; injection h with h; subst h; exact .nil .nil
  | c :: w, st, hw, h => by
    simp only [runB] at h
    cases hb : bracket c st with
    | error e => rw [hb] at h; cases h
    | ok st1 =>
      rw [hb] at h
      have ih := run_balFrom w st1 (fun x hx => hw x (List.mem_cons_of_mem _ hx)) h
      rcases bracket_cases (hw c List.mem_cons_self) hb with ⟨rfl, rfl⟩ | ⟨rfl, rfl⟩ | ⟨hc, rfl⟩
      · cases ih with
        | @cons _ _ u v hu hv =>
          have := balFrom_prepend (Balanced.brace hu .nil) hv
          simpa using this
      · cases ih with
        | @cons _ _ u v hu hv =>
          have := balFrom_prepend (Balanced.square hu .nil) hv
          simpa using this
      · exact BalFrom.cons (u := []) .nil ih

theorem stack_closing : ∀ (w st st' : Str), IsClosing st → runB st w = .ok st' → IsClosing st'
  | [], st, st', hs, h => by simp only [runB] at h; injection h with h; rw [← h]; exact hs
  | c :: w, st, st', hs, h => by
    simp only [runB] at h
    cases hb : bracket c st with
    | error e => rw [hb] at h; cases h
    | ok st1 =>
      rw [hb] at h
      refine stack_closing w st1 st' ?_ h
      by_cases hc : c ∈ ['{', '}', '[', ']']
      · rcases bracket_cases hc hb with ⟨_, rfl⟩ | ⟨_, rfl⟩ | ⟨_, rfl⟩
        · intro x hx
          rcases List.mem_cons.1 hx with rfl | hx
          · exact Or.inl rfl
          · exact hs x hx
        · intro x hx
          rcases List.mem_cons.1 hx with rfl | hx
          · exact Or.inr rfl
          · exact hs x hx
        · exact fun x hx => hs x (List.mem_cons_of_mem _ hx)
      · rw [bracket_other hc] at hb; injection hb with hb; rw [← hb]; exact hs

theorem run_closing : ∀ (st : Str), IsClosing st → runB st st = .ok []
  | [], _ => rfl
  | c :: st, h => by
    have ht : IsClosing st := fun x hx => h x (List.mem_cons_of_mem _ hx)
    rcases h c List.mem_cons_self with rfl | rfl
    · have : runB ('}' :: st) ('}' :: st) = runB st st := rfl
      rw [this]; exact run_closing st ht
    · have : runB (']' :: st) (']' :: st) = runB st st := rfl
      rw [this]; exact run_closing st ht

theorem run_closing_unique : ∀ (c st : Str), IsClosing c → runB st c = .ok [] → c = st
  | [], st, _, h => by simp only [runB] at h; injection h with h; exact h.symm
  | x :: c, st, hc, h => by
    simp only [runB] at h
    cases hb : bracket x st with
    | error e => rw [hb] at h; cases h
    | ok st1 =>
      rw [hb] at h
      have ih := run_closing_unique c st1 (fun y hy => hc y (List.mem_cons_of_mem _ hy)) h
      have hx : x ∈ ['{', '}', '[', ']'] := by
        rcases hc x List.mem_cons_self with rfl | rfl <;> simp
      rcases bracket_cases hx hb with ⟨rfl, _⟩ | ⟨rfl, _⟩ | ⟨_, e⟩
      · rcases hc '{' List.mem_cons_self with h | h <;> exact absurd h (by decide)
      · rcases hc '[' List.mem_cons_self with h | h <;> exact absurd h (by decide)
      · rw [e, ih]

theorem brackets_mem (s : Str) : ∀ c ∈ brackets s, c ∈ ['{', '}', '[', ']'] := by
  intro c hc
  exact of_decide_eq_true (List.mem_filter.1 hc).2

theorem closing_mem {c : Str} (h : IsClosing c) : ∀ x ∈ c, x ∈ ['{', '}', '[', ']'] := by
  intro x hx
  rcases h x hx with rfl | rfl <;> simp

theorem run_balanced {w : Str} (hw : ∀ c ∈ w, c ∈ ['{', '}', '[', ']']) (h : runB [] w = .ok []) : Balanced w := by
  cases run_balFrom w [] hw h with
  | nil h => exact h

/-- Completion: which words complete to a balanced one. -/
theorem completable_iff (w : Str) (hw : ∀ c ∈ w, c ∈ ['{', '}', '[', ']']) :
    (∃ v, Balanced (w ++ v)) ↔ ∃ st, runB [] w = .ok st := by
  constructor
  · rintro ⟨v, hv⟩
    cases h : runB [] w with
    | ok st => exact ⟨st, rfl⟩
    | error e =>
      have := balanced_run hv []
      rw [runB_append_error w v [] e h] at this
      cases this
  · rintro ⟨st, h⟩
    have hc : IsClosing st := stack_closing w [] st (by intro x hx; cases hx) h
    refine ⟨st, run_balanced ?_ ?_⟩
    · intro c hc'
      rcases List.mem_append.1 hc' with h1 | h1
      · exact hw c h1
      · exact closing_mem hc c h1
    · rw [runB_append w st [] st h]; exact run_closing st hc

theorem outside_append (q : Bool) (s c : Str) (hc : IsClosing c) (h : endsOutside q s = true) : outside q (s ++ c) = outside q s ++ c := by
  have base : ∀ c : Str, IsClosing c → outside false c = c := by
    intro c
    induction c with
    | nil => intro _; rfl
    | cons x c ih =>
      intro hc
      have := ih (fun y hy => hc y (List.mem_cons_of_mem _ hy))
      rcases hc x List.mem_cons_self with rfl | rfl
      · rw [outside]
        · rw [this]
        · exact fun e1 => absurd e1 (by decide)
        · exact fun a b e1 => absurd e1 (by decide)
        · exact fun e1 => absurd e1 (by decide)
      · rw [outside]
        · rw [this]
        · exact fun e1 => absurd e1 (by decide)
        · exact fun a b e1 => absurd e1 (by decide)
        · exact fun e1 => absurd e1 (by decide)
  induction q, s using outside.induct with
  | case1 q =>
    cases q
    · simp only [List.nil_append, outside]; exact base c hc
    · simp [endsOutside] at h
  | case2 q => cases q <;> simp [endsOutside] at h
  | case3 q a s ih =>
    simp only [endsOutside] at h
    simp only [outside, List.cons_append]
    exact ih h
  | case4 q s ih =>
    have h1 : ∀ t, outside q ('"' :: t) = outside (!q) t := by intro t; cases q <;> simp [outside]
    have h2 : endsOutside q ('"' :: s) = endsOutside (!q) s := by cases q <;> simp [endsOutside]
    rw [h2] at h
    rw [List.cons_append, h1, h1]; exact ih h
  | case5 a s h1 h2 h3 ih =>
    have hc : a ≠ '\\' := by
      intro e; subst e
      cases s with
      | nil => exact h1 rfl rfl
      | cons a s => exact h2 a s rfl rfl
    have hq : a ≠ '"' := fun e => h3 e
    have e1 : ∀ s, outside true (a :: s) = outside true s := by
      intro s
      rw [outside]
      · exact fun e1 e2 => hc e1
      · exact fun a b e1 e2 => hc e1
      · exact hq
    have e2 : endsOutside true (a :: s) = endsOutside true s := by
      rw [endsOutside]
      · exact fun e1 e2 => hc e1
      · exact fun a b e1 e2 => hc e1
      · exact hq
    rw [e2] at h
    rw [List.cons_append, e1, e1]; exact ih h
  | case6 a s h1 h2 h3 ih =>
    have hc : a ≠ '\\' := by
      intro e; subst e
      cases s with
      | nil => exact h1 rfl rfl
      | cons a s => exact h2 a s rfl rfl
    have hq : a ≠ '"' := fun e => h3 e
    have e1 : ∀ s, outside false (a :: s) = a :: outside false s := by
      intro s
      rw [outside]
      · exact fun e1 e2 => hc e1
      · exact fun a b e1 e2 => hc e1
      · exact hq
    have e2 : endsOutside false (a :: s) = endsOutside false s := by
      rw [endsOutside]
      · exact fun e1 e2 => hc e1
      · exact fun a b e1 e2 => hc e1
      · exact hq
    rw [e2] at h
    rw [List.cons_append, e1, e1, ih h]; rfl

theorem brackets_append {s c : Str} (hc : IsClosing c) (h : endsOutside false s = true) : brackets (s ++ c) = brackets s ++ c := by
  simp only [brackets, outside_append false s c hc h, List.filter_append]
  congr 1
  exact List.filter_eq_self.2 (fun x hx => decide_eq_true (closing_mem hc x hx))

theorem fixJson_ok {s t : Str} (h : fixJson s = .ok t) : ∃ st, s ≠ [] ∧ runB [] (brackets s) = .ok st ∧ t = s ++ st ∧ IsClosing st := by
  have hne : s ≠ [] := by intro e; subst e; simp [fixJson] at h
  rw [fixJson_eq s hne] at h
  cases hr : runB [] (brackets s) with
  | error e => rw [hr] at h; cases h
  | ok st =>
    rw [hr] at h
    injection h with h
    exact ⟨st, hne, rfl, h.symm, stack_closing _ [] st (by intro x hx; cases hx) hr⟩

/-! ### The theorems -/

/-- The result is the input followed by closing brackets. -/
theorem C70_extends (s t : Str) (h : fixJson s = .ok t) : ∃ c, t = s ++ c ∧ IsClosing c := by
  obtain ⟨st, _, _, h1, h2⟩ := fixJson_ok h
  exact ⟨st, h1, h2⟩

/-- On non-empty text it raises (ValueError) exactly when the brackets outside strings cannot be completed to a balanced word. -/
theorem C70_raises_iff (s : Str) (h : s ≠ []) :
    ((∃ e, fixJson s = .error e) ↔ ¬ ∃ w, Balanced (brackets s ++ w)) ∧ (∀ e, fixJson s = .error e → e = .valueError) := by
  rw [completable_iff _ (brackets_mem s), fixJson_eq s h]
  cases hr : runB [] (brackets s) with
  | error e =>
    refine ⟨⟨fun _ => ?_, fun _ => ⟨e, rfl⟩⟩, ?_⟩
    · rintro ⟨st, hst⟩; cases hst
    · intro e' he'; injection he' with he'; rw [← he']; exact runB_error _ _ _ hr
  | ok st =>
    refine ⟨⟨?_, fun hn => absurd ⟨st, rfl⟩ hn⟩, ?_⟩
    · rintro ⟨e, he⟩; cases he
    · intro e he; cases he

/-- When the text ends outside strings, the brackets of the result are balanced, what was added is the only completion by closing brackets, and a second
application changes nothing. -/
theorem C70_balanced (s t : Str) (hend : endsOutside false s = true) (h : fixJson s = .ok t) :
    Balanced (brackets t) ∧ fixJson t = .ok t ∧ ∀ c, IsClosing c → Balanced (brackets (s ++ c)) → t = s ++ c := by
  obtain ⟨st, hne, hr, rfl, hc⟩ := fixJson_ok h
  have hrun : runB [] (brackets (s ++ st)) = .ok [] := by
    rw [brackets_append hc hend, runB_append _ st [] st hr]; exact run_closing st hc
  refine ⟨run_balanced (brackets_mem _) hrun, ?_, ?_⟩
  · rw [fixJson_eq _ (by simp [hne]), hrun]; simp
  · intro c hc' hb
    rw [brackets_append hc' hend] at hb
    have := balanced_run hb []
    rw [runB_append _ c [] st hr] at this
    rw [run_closing_unique c st hc' this]

/-- Text that ends inside a string: the added bracket becomes part of the string, and every further application adds another. -/
theorem C70_open_string_limit :
    fixJson "{\"a".toList = .ok "{\"a}".toList ∧ fixJson "{\"a}".toList = .ok "{\"a}}".toList ∧ ¬ Balanced (brackets "{\"a}".toList) := by
  refine ⟨by decide, by decide, ?_⟩
  have e : brackets "{\"a}".toList = ['{'] := by decide
  rw [e]
  intro h
  have := balanced_run h []
  exact absurd this (by decide)

example : fixJson "{\"a]\": [1, {\"b\": 2".toList = .ok "{\"a]\": [1, {\"b\": 2}]}".toList ∧ endsOutside false "{\"a]\": [1, {\"b\": 2".toList = true := by decide
example : fixJson "{\"a\": 1]".toList = .error .valueError := by decide
example : fixJson "[1]]".toList = .error .valueError := by decide

/-! ## C71: `fuzzy_json` -/

variable {α : Type}

/-- A dict or a list of dicts. -/
def Structured : J α → Prop
  | .dict _ => True
  | .list items => ∀ x ∈ items, x ≠ none
  | .prim _ => False

theorem validate_cases (j : J α) : (Structured j ∧ validate j = .ok j) ∨ (¬ Structured j ∧ validate j = .error .typeError) := by
  cases j with
  | dict a => exact Or.inl ⟨trivial, rfl⟩
  | prim a => exact Or.inr ⟨fun h => h, rfl⟩
  | list items =>
    by_cases h : items.all Option.isSome = true
    · refine Or.inl ⟨?_, by simp only [validate]; rw [if_pos h]⟩
      intro x hx
      have := List.all_eq_true.1 h x hx
      intro e; rw [e] at this; cases this
    · refine Or.inr ⟨?_, by simp only [validate]; rw [if_neg h]⟩
      intro hs
      apply h
      rw [List.all_eq_true]
      intro x hx
      cases x with
      | none => exact absurd rfl (hs none hx)
      | some _ => rfl

/-- Every outcome of `fuzzy_json` is that of validating a value the parser produced, or a ValueError. -/
theorem fuzzy_cases (loads : Str → Option (J α)) (s : Str) :
    fuzzyJson loads s = .error .valueError ∨ ∃ t j, loads t = some j ∧ fuzzyJson loads s = validate j := by
  simp only [fuzzyJson]
  split
  · exact Or.inl rfl
  · cases h1 : loads s with
    | some j => exact Or.inr ⟨s, j, h1, rfl⟩
    | none =>
      cases h2 : loads (clean s) with
      | some j => exact Or.inr ⟨_, j, h2, rfl⟩
      | none =>
        simp only [third]
        cases h3 : fixJson (clean s) with
        | error e =>
          left
          have : e = .valueError := by
            by_cases hn : clean s = []
            · rw [hn] at h3; simp only [fixJson] at h3; injection h3 with h3; exact h3.symm
            · exact (C70_raises_iff _ hn).2 e h3
          rw [this]
        | ok fixed =>
          cases h4 : loads fixed with
          | some j => exact Or.inr ⟨fixed, j, h4, by simp only [h4]⟩
          | none => exact Or.inl (by simp only [h4])

/-- `fuzzy_json` returns a dict or a list of dicts, or raises TypeError or ValueError. -/
theorem C71_return_type (loads : Str → Option (J α)) (s : Str) :
    (∃ j, fuzzyJson loads s = .ok j ∧ Structured j) ∨ fuzzyJson loads s = .error .typeError ∨ fuzzyJson loads s = .error .valueError := by
  rcases fuzzy_cases loads s with h | ⟨t, j, _, h⟩
  · exact Or.inr (Or.inr h)
  · rcases validate_cases j with ⟨h1, h2⟩ | ⟨_, h2⟩
    · exact Or.inl ⟨j, by rw [h, h2], h1⟩
    · exact Or.inr (Or.inl (by rw [h, h2]))

/-- On text that is JSON for a dict or a list of dicts, the result is the plain parse; on JSON of any other shape it raises TypeError.
(`hblank`: the parser rejects blank text, as every JSON parser does.) -/
theorem C71_plain_json (loads : Str → Option (J α)) (hblank : ∀ s, s.all isSpace = true → loads s = none) (s : Str) (j : J α) (h : loads s = some j) :
    (Structured j → fuzzyJson loads s = .ok j) ∧ (¬ Structured j → fuzzyJson loads s = .error .typeError) := by
  have hb : s.all isSpace ≠ true := by intro e; rw [hblank s e] at h; cases h
  have he : fuzzyJson loads s = validate j := by simp only [fuzzyJson]; rw [if_neg hb, h]
  rcases validate_cases j with ⟨h1, h2⟩ | ⟨h1, h2⟩
  · exact ⟨fun _ => by rw [he, h2], fun hn => absurd h1 hn⟩
  · exact ⟨fun hs => absurd hs h1, fun _ => by rw [he, h2]⟩

/-- Whatever is returned, the parser produced it from the text, from its cleaned form, or from the cleaned form completed by closing brackets. -/
theorem C71_origin (loads : Str → Option (J α)) (s : Str) (j : J α) (h : fuzzyJson loads s = .ok j) :
    loads s = some j ∨ loads (clean s) = some j ∨ ∃ c, IsClosing c ∧ loads (clean s ++ c) = some j := by
  have val : ∀ j', validate j' = .ok j → j' = j := by
    intro j' hv
    rcases validate_cases j' with ⟨_, h2⟩ | ⟨_, h2⟩
    · rw [h2] at hv; injection hv
    · rw [h2] at hv; cases hv
  simp only [fuzzyJson] at h
  split at h
  · cases h
  · cases h1 : loads s with
    | some j' => rw [h1] at h; rw [val j' h]; exact Or.inl rfl
    | none =>
      rw [h1] at h
      cases h2 : loads (clean s) with
      | some j' => rw [h2] at h; rw [val j' h]; exact Or.inr (Or.inl rfl)
      | none =>
        rw [h2] at h
        simp only [third] at h
        cases h3 : fixJson (clean s) with
        | error e => rw [h3] at h; cases h
        | ok fixed =>
          rw [h3] at h
          obtain ⟨c, rfl, hc⟩ := C70_extends _ _ h3
          cases h4 : loads (clean s ++ c) with
          | some j' => simp only [h4] at h; rw [val j' h] at h4; exact Or.inr (Or.inr ⟨c, hc, h4⟩)
          | none => simp only [h4] at h; cases h

/-- A small parser for the examples. -/
def demoLoads (s : Str) : Option (J Nat) :=
  if s = "{\"a\":1}".toList then some (.dict 1)
  else if s = "[1]".toList then some (.list [none])
  else none

example : fuzzyJson demoLoads "{\"a\":1}".toList = .ok (.dict 1) := by decide
example : fuzzyJson demoLoads "[1]".toList = .error .typeError := by decide
example : fuzzyJson demoLoads "{'a':1,}".toList = .ok (.dict 1) := by decide
example : fuzzyJson demoLoads "{a:1".toList = .ok (.dict 1) := by decide
example : fuzzyJson demoLoads "{a:1]".toList = .error .valueError := by decide

/-! ## C126: repairs do not touch string contents -/

/-- Text that needs no repair of its characters: no single quotes, no runs of whitespace or whitespace other than blanks, no comma before a closing
bracket, and after `{` or `,` no bare key; it is already stripped. -/
structure Tidy (s : Str) : Prop where
  quotes : '\'' ∉ s
  spaces : collapse false s = s
  commas : dropCommas false s = s
  keys : quoteKeys s.length s = s
  ends : strip s = s

theorem requote_id (s : Str) (h : '\'' ∉ s) : requote s = s := by
  induction s with
  | nil => rfl
  | cons c s ih =>
    simp only [List.mem_cons, not_or] at h
    simp only [requote, List.map_cons] at ih ⊢
    rw [if_neg (fun e => h.1 e.symm)]
    rw [show s.map (fun c => if c = '\'' then '"' else c) = s from ih h.2]

/-- Tidy text reaches the parser unchanged except for added closing brackets.  The full claim: strings are never altered by the repairs. -/
theorem C126_tidy_partial (loads : Str → Option (J α)) (s : Str) (ht : Tidy s) (j : J α) (h : fuzzyJson loads s = .ok j) :
    ∃ c, IsClosing c ∧ loads (s ++ c) = some j := by
  have hc : clean s = s := by
    simp only [clean, requote_id s ht.quotes, ht.spaces, ht.commas, ht.keys, ht.ends]
  rcases C71_origin loads s j h with h1 | h1 | ⟨c, hc', h1⟩
  · exact ⟨[], (by intro x hx; cases hx), by simpa using h1⟩
  · exact ⟨[], (by intro x hx; cases hx), by rw [hc] at h1; simpa using h1⟩
  · exact ⟨c, hc', by rw [hc] at h1; exact h1⟩

/-- `{'a': 'x,  ]'}`: whichever parser is used, if it rejects this text and reads `{"a": "x]"}`, the comma and the blanks of the value are gone. -/
theorem C126_content_violation (loads : Str → Option (J α)) (j : J α) (hd : Structured j)
    (h1 : loads "{'a': 'x,  ]'}".toList = none) (h2 : loads "{\"a\": \"x]\"}".toList = some j) :
    fuzzyJson loads "{'a': 'x,  ]'}".toList = .ok j := by
  have hc : clean "{'a': 'x,  ]'}".toList = "{\"a\": \"x]\"}".toList := by decide
  have hb : ("{'a': 'x,  ]'}".toList).all isSpace ≠ true := by decide
  simp only [fuzzyJson]
  rw [if_neg hb, h1]
  simp only [hc, h2]
  rcases validate_cases j with ⟨_, h⟩ | ⟨h, _⟩
  · exact h
  · exact absurd hd h

/-- An apostrophe in a double-quoted value becomes a quote, so a missing bracket can no longer be repaired. -/
theorem C126_apostrophe_violation : clean "{\"a\": \"it's\"".toList = "{\"a\": \"it\"s\"".toList := by decide

example : Tidy "{\"a\": [1, 2".toList := ⟨by decide, by decide, by decide, by decide, by decide⟩

end Verif.FuzzyJson
