import Verif.Model.Element

/-!
# C75–C78, C83, C129–C131: `Element` and `Node`
-/

set_option linter.unusedSectionVars false
set_option linter.unusedSimpArgs false
set_option linter.unusedVariables false

namespace Verif.Element

variable {ι γ α φ : Type} [DecidableEq ι] [DecidableEq γ]

/-! ### C75: identity -/

theorem setAttr_frozen (W : World ι γ α φ) (x : Elem ι γ α φ) (n : String) (v : DV ι α) :
    (setAttr W x n v).1.id = x.id ∧ (setAttr W x n v).1.created = x.created := by
  unfold setAttr
  split
  · exact ⟨rfl, rfl⟩
  · split
    · exact ⟨rfl, rfl⟩
    · split
      · split <;> exact ⟨rfl, rfl⟩
      · exact ⟨rfl, rfl⟩

theorem history_frozen (W : World ι γ α φ) (ops : List (String × DV ι α)) :
    ∀ x : Elem ι γ α φ, (history W x ops).id = x.id ∧ (history W x ops).created = x.created := by
  induction ops with
  | nil => intro x; exact ⟨rfl, rfl⟩
  | cons op ops ih =>
    intro x
    have h := ih (setAttr W x op.1 op.2).1
    have h2 := setAttr_frozen W x op.1 op.2
    exact ⟨h.1.trans h2.1, h.2.trans h2.2⟩

/-- **C75** (identity). Whatever is assigned to two elements, they stay equal exactly if they were created with the same id, and equal elements hash equally. -/
theorem C75_identity (W : World ι γ α φ) (h : ι → Int) (x y : Elem ι γ α φ) (ops ops' : List (String × DV ι α)) :
    (eq (history W x ops) (history W y ops') = true ↔ x.id = y.id) ∧
    (x.id = y.id → hash h (history W x ops) = hash h (history W y ops')) := by
  have hx := history_frozen W ops x
  have hy := history_frozen W ops' y
  unfold eq hash
  rw [hx.1, hy.1]
  exact ⟨by simp, fun e => by rw [e]⟩

/-- **C75** (frozen). Assigning `id` or `created_at` raises and changes nothing; no history of assignments changes them, nor the hash. -/
theorem C75_frozen (W : World ι γ α φ) (h : ι → Int) (x : Elem ι γ α φ) (ops : List (String × DV ι α)) :
    (history W x ops).id = x.id ∧ (history W x ops).created = x.created ∧ hash h (history W x ops) = hash h x ∧
    (∀ v, setAttr W x "id" v = (x, .error .validation)) ∧ (∀ v, setAttr W x "created_at" v = (x, .error .validation)) := by
  have hx := history_frozen W ops x
  refine ⟨hx.1, hx.2, by unfold hash; rw [hx.1], fun v => ?_, fun v => ?_⟩
  · unfold setAttr; rw [if_pos (Or.inl rfl)]
  · unfold setAttr; rw [if_pos (Or.inr rfl)]

/-! ### C78: creation times -/

theorem fromTimestamp_aware {L : TimeLib} {n : Num} {t : DateTime} (h : fromTimestamp L n = .ok t) : t.offset = some 0 := by
  cases n with
  | inf => cases h
  | nan => cases h
  | fin q =>
    simp only [fromTimestamp] at h
    cases hq : L.fromTs q with
    | error e => rw [hq] at h; cases h
    | ok w => rw [hq] at h; simp only [Except.ok.injEq] at h; rw [← h]

/-- The inputs whose creation time is certain to carry a timezone: everything but strings that are read as ISO text without an offset. -/
def CarriesZone (L : TimeLib) : TimeArg → Prop
  | .str s => ∀ t, L.fromIso s = some t → t.offset.isSome = true
  | _ => True

/-- **C78** (partial). For a datetime, a number, or a string that is a number or ISO text with an offset, the result is timezone-aware. Missing: ISO text without an offset, see `C78_naive_violation`. -/
theorem C78_aware_partial (L : TimeLib) (v : TimeArg) (hv : CarriesZone L v) (t : DateTime) (h : coerceCreatedAt L v = .ok t) :
    t.offset.isSome = true := by
  have iso : ∀ s, CarriesZone L (.str s) → coerceIso L s = .ok t → t.offset.isSome = true := by
    intro s hs h
    unfold coerceIso at h
    cases hi : L.fromIso s with
    | none => rw [hi] at h; cases h
    | some u => rw [hi] at h; cases h; exact hs _ hi
  cases v with
  | other => cases h
  | num n => simp only [coerceCreatedAt] at h; rw [fromTimestamp_aware h]; rfl
  | dt u =>
    simp only [coerceCreatedAt] at h
    split at h
    · next ho => cases h; exact ho
    · cases h; rfl
  | str s =>
    simp only [coerceCreatedAt, coerceStr] at h
    cases hp : L.parseFloat s with
    | none => rw [hp] at h; exact iso s hv h
    | some n =>
      rw [hp] at h
      simp only [] at h
      cases hn : fromTimestamp L n with
      | ok u => rw [hn] at h; cases h; rw [fromTimestamp_aware hn]; rfl
      | error e =>
        rw [hn] at h
        cases e <;> first | exact iso s hv h | cases h

/-- **C78** (same instant). Aware datetimes are returned unchanged, naive ones are read as UTC; numbers as seconds since the epoch in UTC. -/
theorem C78_instant (L : TimeLib) :
    (∀ w o, coerceCreatedAt L (.dt ⟨w, some o⟩) = .ok ⟨w, some o⟩) ∧
    (∀ w, coerceCreatedAt L (.dt ⟨w, none⟩) = .ok ⟨w, some 0⟩) ∧
    (∀ q w, L.fromTs q = .ok w → coerceCreatedAt L (.num (.fin q)) = .ok ⟨w, some 0⟩) := by
  refine ⟨fun _ _ => rfl, fun _ => rfl, fun q w h => ?_⟩
  simp only [coerceCreatedAt, fromTimestamp, h]

/-- A library in which "2025" is the ISO text of a time without offset, "2025Z" the same time with offset 0, "7" a number and "inf" infinity (as for Python's `float` and `fromisoformat` on "2025-01-01", "2025-01-01T00:00Z", "7" and "inf"). -/
def sampleLib : TimeLib where
  parseFloat s := if s = ['7'] then some (.fin 7) else if s = ['i', 'n', 'f'] then some .inf else none
  fromIso s := if s = ['2', '0', '2', '5', '-'] then some ⟨2025, none⟩ else if s = ['2', '0', '2', '5', 'Z'] then some ⟨2025, some 0⟩ else none
  fromTs q := if q = 7 then .ok 7000000 else .error .valueError

/-- **C78** (violation). ISO text without an offset gives a creation time without timezone. -/
theorem C78_naive_violation : ∃ (L : TimeLib) (s : List Char) (t : DateTime),
    coerceCreatedAt L (.str s) = .ok t ∧ t.offset = none :=
  ⟨sampleLib, ['2', '0', '2', '5', '-'], ⟨2025, none⟩, by decide +kernel, rfl⟩

example : coerceCreatedAt sampleLib (.str ['7']) = .ok ⟨7000000, some 0⟩ ∧
    coerceCreatedAt sampleLib (.str ['2', '0', '2', '5', 'Z']) = .ok ⟨2025, some 0⟩ ∧ CarriesZone sampleLib (.str ['2', '0', '2', '5', 'Z']) := by
  refine ⟨by decide +kernel, by decide +kernel, ?_⟩
  intro t h
  have : sampleLib.fromIso ['2', '0', '2', '5', 'Z'] = some ⟨2025, some 0⟩ := by decide
  rw [this] at h; cases h; rfl

/-- Finite numbers convert or raise `ValueError`. -/
def FiniteOk (L : TimeLib) : Prop := ∀ q e, L.fromTs q = .error e → e = .valueError

/-- **C132** (partial). Unusable input raises `ValueError`, except for infinities (see the violation). -/
theorem C132_valueError_partial (L : TimeLib) (hL : FiniteOk L) (v : TimeArg) (e : Exc) (h : coerceCreatedAt L v = .error e)
    (hn : v ≠ .num .inf) (hs : ∀ s, v = .str s → L.parseFloat s ≠ some .inf) : e = .valueError := by
  have ts : ∀ n, n ≠ .inf → ∀ e, fromTimestamp L n = .error e → e = .valueError := by
    intro n hn e h
    cases n with
    | inf => exact absurd rfl hn
    | nan => cases h; rfl
    | fin q =>
      simp only [fromTimestamp] at h
      cases hq : L.fromTs q with
      | ok w => rw [hq] at h; cases h
      | error e' => rw [hq] at h; cases h; exact hL _ _ hq
  have iso : ∀ s e, coerceIso L s = .error e → e = .valueError := by
    intro s e h
    unfold coerceIso at h
    cases hi : L.fromIso s with
    | none => rw [hi] at h; cases h; rfl
    | some u => rw [hi] at h; cases h
  cases v with
  | other => cases h; rfl
  | num n => exact ts n (fun hh => hn (by rw [hh])) e h
  | dt u => simp only [coerceCreatedAt] at h; split at h <;> cases h
  | str s =>
    simp only [coerceCreatedAt, coerceStr] at h
    cases hp : L.parseFloat s with
    | none => rw [hp] at h; exact iso s e h
    | some n =>
      rw [hp] at h
      simp only [] at h
      have hne : n ≠ .inf := fun hh => hs s rfl (by rw [hp, hh])
      cases hn' : fromTimestamp L n with
      | ok u => rw [hn'] at h; cases h
      | error e' =>
        rw [hn'] at h
        have := ts n hne e' hn'
        subst this
        exact iso s e h

/-- **C132** (violation). The string "inf" raises `OverflowError`, also through the validator of `created_at`. -/
theorem C132_inf_violation : coerceCreatedAt sampleLib (.str ['i', 'n', 'f']) = .error .overflowError ∧
    pydanticExc .overflowError = .overflowError := by decide +kernel

example : FiniteOk sampleLib := by
  intro q e h
  simp only [sampleLib] at h
  split at h <;> cases h; rfl

/-! ### Names -/

theorem rsplitRev_append (l r : List Char) (h : '.' ∉ l) : rsplitRev (l ++ '.' :: r) = (l.reverse, some r.reverse) := by
  induction l with
  | nil => simp [rsplitRev]
  | cons c cs ih =>
    simp only [List.mem_cons, not_or] at h
    have hc : c ≠ '.' := fun e => h.1 e.symm
    simp only [List.cons_append, rsplitRev, if_neg hc, ih h.2, List.reverse_cons]

theorem rsplit_append (m n : List Char) (h : '.' ∉ n) : rsplit (m ++ '.' :: n) = (some m, n) := by
  have hr : (m ++ '.' :: n).reverse = n.reverse ++ '.' :: m.reverse := by simp
  unfold rsplit
  rw [hr, rsplitRev_append _ _ (by simpa using h)]
  simp

theorem stripGeneric_eq (n : List Char) (h : '[' ∉ n) : stripGeneric n = n := by
  unfold stripGeneric
  induction n with
  | nil => rfl
  | cons c cs ih =>
    simp only [List.mem_cons, not_or] at h
    have hc : (c != '[') = true := by simpa using fun e : c = '[' => h.1 e.symm
    rw [List.takeWhile_cons, if_pos hc, ih h.2]

/-- A class defined at the top level of its module and reachable there under its name. -/
structure TopLevel (W : World ι γ α φ) (c : γ) : Prop where
  qual : W.qualname c = W.name c
  noDot : '.' ∉ W.name c
  noBracket : '[' ∉ W.name c
  importable : W.attr (W.module c) (W.name c) = some (.cls c)
  absolute : (W.module c).head? ≠ some '.'

theorem fullName_top {W : World ι γ α φ} {c : γ} (h : TopLevel W c) : fullName W c = W.module c ++ '.' :: W.name c := by
  unfold fullName
  rw [h.qual, stripGeneric_eq _ h.noBracket]

theorem rsplit_fullName {W : World ι γ α φ} {c : γ} (h : TopLevel W c) : rsplit (fullName W c) = (some (W.module c), W.name c) := by
  rw [fullName_top h, rsplit_append _ _ h.noDot]

theorem importType_top {W : World ι γ α φ} {c : γ} (h : TopLevel W c) : importType W (fullName W c) = .ok (.cls c) := by
  unfold importType
  have hr : relative (W.module c) = false := by unfold relative; simpa using h.absolute
  rw [rsplit_fullName h]
  simp only [hr, h.importable, typeAttr, Bool.false_eq_true, if_false]

theorem fullName_inj {W : World ι γ α φ} {c c' : γ} (h : TopLevel W c) (h' : TopLevel W c') (e : fullName W c = fullName W c') : c = c' := by
  have h1 := importType_top h
  rw [e, importType_top h'] at h1
  injection h1 with h2
  injection h2 with h3
  exact h3.symm

/-! ### C129: `load_type_from_string` -/

/-- Every cached entry is what importing yields. -/
def CacheOk (W : World ι γ α φ) (cache : Dict (List Char) (Attr γ)) : Prop := ∀ s a, cache.get? s = some a → importType W s = .ok a

/-- The cache after a sequence of calls. -/
def loadAll (W : World ι γ α φ) (calls : List (List Char)) : Dict (List Char) (Attr γ) :=
  calls.foldl (fun cache s => (loadType W cache s).2) []

theorem loadType_ok {W : World ι γ α φ} {cache : Dict (List Char) (Attr γ)} (hc : CacheOk W cache) (s : List Char) :
    (loadType W cache s).1 = importType W s ∧ CacheOk W (loadType W cache s).2 := by
  unfold loadType
  cases h : cache.get? s with
  | some a => exact ⟨(hc s a h).symm, hc⟩
  | none =>
    simp only []
    cases hi : importType W s with
    | error e => exact ⟨rfl, hc⟩
    | ok a =>
      refine ⟨rfl, fun s' a' h' => ?_⟩
      simp only [] at h'
      rw [Dict.get?_set] at h'
      split at h'
      · next e => subst e; cases h'; exact hi
      · exact hc s' a' h'

theorem cacheOk_loadAll (W : World ι γ α φ) (calls : List (List Char)) :
    ∀ cache, CacheOk W cache → CacheOk W (calls.foldl (fun cache s => (loadType W cache s).2) cache) := by
  induction calls with
  | nil => intro cache h; exact h
  | cons s calls ih => intro cache h; exact ih _ (loadType_ok h s).2

/-- **C129** (cache transparent). After any sequence of loads, loading a name gives what importing it afresh gives. -/
theorem C129_cache (W : World ι γ α φ) (calls : List (List Char)) (s : List Char) :
    (loadType W (loadAll W calls) s).1 = importType W s :=
  (loadType_ok (cacheOk_loadAll W calls [] (by intro s a h; cases h)) s).1

/-- **C129** (round trip). The full name of a class defined at module level loads that class, after any sequence of loads. -/
theorem C129_round_trip (W : World ι γ α φ) (calls : List (List Char)) (c : γ) (h : TopLevel W c) :
    (loadType W (loadAll W calls) (fullName W c)).1 = .ok (.cls c) := by
  rw [C129_cache, importType_top h]

theorem importType_noDot (W : World ι γ α φ) (n : List Char) (hn : '.' ∉ n) : importType W n = .error .valueError := by
  have hno : (rsplit n).1 = none := by
    unfold rsplit
    have : ∀ l : List Char, '.' ∉ l → (rsplitRev l).2 = none := by
      intro l
      induction l with
      | nil => intro _; rfl
      | cons c cs ih =>
        intro h
        simp only [List.mem_cons, not_or] at h
        have hc : c ≠ '.' := fun e => h.1 e.symm
        simp only [rsplitRev, if_neg hc, ih h.2]
    exact this _ (by simpa using hn)
  unfold importType
  rw [hno]

/-- A text has no dot, or a last dot. -/
theorem rsplit_cases (s : List Char) : '.' ∉ s ∨ ∃ m n, '.' ∉ n ∧ s = m ++ '.' :: n := by
  induction s with
  | nil => exact Or.inl (by simp)
  | cons c s ih =>
    rcases ih with h | ⟨m, n, hn, hs⟩
    · by_cases hc : c = '.'
      · exact Or.inr ⟨[], s, h, by rw [hc]; rfl⟩
      · exact Or.inl (by simp only [List.mem_cons, not_or]; exact ⟨fun e => hc e.symm, h⟩)
    · exact Or.inr ⟨c :: m, n, hn, by rw [hs]; rfl⟩

/-- **C129** (failure). A name whose module path does not start with a dot loads exactly if it is a module path, a dot and an attribute of that module that is a type;
anything else raises `ValueError`. -/
theorem C129_failure (W : World ι γ α φ) (calls : List (List Char)) (m n : List Char) (hn : '.' ∉ n) (hm : m.head? ≠ some '.') :
    ((loadType W (loadAll W calls) (m ++ '.' :: n)).1 = .error .valueError ↔ W.attr m n = none ∨ W.attr m n = some .value) ∧
    (∀ a, (loadType W (loadAll W calls) (m ++ '.' :: n)).1 = .ok a ↔ W.attr m n = some a ∧ a ≠ .value) ∧
    (loadType W (loadAll W calls) n).1 = .error .valueError := by
  have hr : relative m = false := by unfold relative; simpa using hm
  rw [C129_cache, C129_cache]
  refine ⟨?_, ?_, importType_noDot W n hn⟩
  · unfold importType
    rw [rsplit_append _ _ hn]
    simp only [hr, Bool.false_eq_true, if_false]
    cases h : W.attr m n with
    | none => simp [typeAttr]
    | some a => cases a <;> simp [typeAttr]
  · intro a
    unfold importType
    rw [rsplit_append _ _ hn]
    simp only [hr, Bool.false_eq_true, if_false]
    cases h : W.attr m n with
    | none => simp [typeAttr]
    | some b => cases b <;> cases a <;> simp [typeAttr]

/-- Two dots at the start of a name make its module path relative. -/
theorem relative_iff (m n : List Char) (hn : '.' ∉ n) : relative m = true ↔ ∃ r, m ++ '.' :: n = '.' :: (r ++ '.' :: n) := by
  unfold relative
  constructor
  · intro h
    cases m with
    | nil => cases h
    | cons c m =>
      simp only [List.head?_cons, beq_iff_eq, Option.some.injEq] at h
      subst h
      exact ⟨m, rfl⟩
  · rintro ⟨r, h⟩
    cases m with
    | nil =>
      simp only [List.nil_append, List.cons.injEq, true_and] at h
      exact absurd (by rw [h]; simp) hn
    | cons c m =>
      simp only [List.cons_append, List.cons.injEq] at h
      rw [h.1]; rfl

/-- **C243**. A class name that cannot be loaded is reported by `ValueError`, unless it starts with a dot and has another dot after it: then, and only then, by `TypeError`. -/
theorem C243_exact_partial (W : World ι γ α φ) (calls : List (List Char)) (s : List Char) (e : Exc) (h : (loadType W (loadAll W calls) s).1 = .error e) :
    (e = .valueError ∨ e = .typeError) ∧ (e = .typeError ↔ ∃ r n, '.' ∉ n ∧ s = '.' :: (r ++ '.' :: n)) := by
  rw [C129_cache] at h
  rcases rsplit_cases s with hd | ⟨m, n, hn, hs⟩
  · rw [importType_noDot W s hd] at h
    cases h
    refine ⟨Or.inl rfl, by simp, ?_⟩
    rintro ⟨r, n, _, hs⟩
    exact absurd (by rw [hs]; simp) hd
  · subst hs
    unfold importType at h
    rw [rsplit_append _ _ hn] at h
    simp only at h
    cases hr : relative m with
    | true =>
      rw [hr, if_pos rfl] at h
      cases h
      obtain ⟨r, hr⟩ := (relative_iff m n hn).1 hr
      exact ⟨Or.inr rfl, fun _ => ⟨r, n, hn, hr⟩, fun _ => rfl⟩
    | false =>
      rw [hr, if_neg (by simp)] at h
      have : e = .valueError := by
        cases ha : W.attr m n with
        | none => rw [ha] at h; cases h; rfl
        | some a => rw [ha] at h; cases a <;> cases h; rfl
      subst this
      refine ⟨Or.inl rfl, by simp, ?_⟩
      rintro ⟨r, n', hn', hs⟩
      have h1 := rsplit_append m n hn
      rw [hs] at h1
      have h2 := rsplit_append ('.' :: r) n' hn'
      rw [List.cons_append] at h2
      rw [h2] at h1
      simp only [Prod.mk.injEq, Option.some.injEq] at h1
      rw [← h1.1] at hr
      cases hr

/-- **C243**, refuted in full: `load_type_from_string("..X")` raises `TypeError`, whatever can be imported and whatever was loaded before. -/
theorem C243_violation (W : World ι γ α φ) (calls : List (List Char)) : (loadType W (loadAll W calls) "..X".toList).1 = .error .typeError := by
  rw [C129_cache]; rfl

/-! ### C83: the registry -/

theorem get?_registerClass (W : World ι γ α φ) (R : Registry γ) (c : γ) (k : List Char) :
    (registerClass W R c).get? k = if W.module c ++ '.' :: W.name c = k then some c else if W.name c = k then some c else R.get? k := by
  unfold registerClass
  rw [Dict.get?_set, Dict.get?_set]

/-- The classes registering under key `k`. -/
def Claims (W : World ι γ α φ) (k : List Char) (c : γ) : Prop := W.module c ++ '.' :: W.name c = k ∨ W.name c = k

theorem registered_unique (W : World ι γ α φ) (k : List Char) (c : γ) :
    ∀ (cs : List γ) (R : Registry γ), (∀ c' ∈ cs, Claims W k c' → c' = c) → (R.get? k = some c ∨ (c ∈ cs ∧ Claims W k c)) →
    (cs.foldl (registerClass W) R).get? k = some c := by
  intro cs
  induction cs with
  | nil => intro R _ h; rcases h with h | h; exact h; cases h.1
  | cons c0 cs ih =>
    intro R hu h
    have hu' : ∀ c' ∈ cs, Claims W k c' → c' = c := fun c' hc' => hu c' (List.mem_cons_of_mem _ hc')
    show (cs.foldl (registerClass W) (registerClass W R c0)).get? k = some c
    apply ih _ hu'
    by_cases hcl : Claims W k c0
    · left
      have := hu c0 List.mem_cons_self hcl
      subst this
      rw [get?_registerClass]
      rcases hcl with hcl | hcl
      · rw [if_pos hcl]
      · split
        · rfl
        · rfl
    · have hR : (registerClass W R c0).get? k = R.get? k := by
        rw [get?_registerClass]
        rw [if_neg (fun e => hcl (Or.inl e)), if_neg (fun e => hcl (Or.inr e))]
      rcases h with h | h
      · left; rw [hR]; exact h
      · right
        rcases List.mem_cons.1 h.1 with e | e
        · subst e; exact absurd h.2 hcl
        · exact ⟨e, h.2⟩

/-- **C83** (module-level classes). When all Node classes are defined at module level — any number, in any order, also with equal short names in different modules — looking up the class tag a class writes gives that class. -/
theorem C83_module_level (W : World ι γ α φ) (cs : List γ) (htop : ∀ c ∈ cs, TopLevel W c) (c : γ) (hc : c ∈ cs) :
    lookupTag (registerAll W cs) (fullName W c) = some c := by
  have h : (registerAll W cs).get? (fullName W c) = some c := by
    apply registered_unique
    · intro c' hc' hcl
      rcases hcl with e | e
      · exact fullName_inj (htop c' hc') (htop c hc) (by rw [fullName_top (htop c' hc')]; exact e)
      · exfalso
        apply (htop c' hc').noDot
        rw [e, fullName_top (htop c hc)]
        simp
    · exact Or.inr ⟨hc, Or.inl (fullName_top (htop c hc)).symm⟩
  unfold lookupTag
  rw [h]

/-- **C130** (partial). A class nested in another class or function is still found if no other Node class has its short name and no Node class claims its tag. -/
theorem C130_nested_partial (W : World ι γ α φ) (cs : List γ) (c : γ) (hc : c ∈ cs) (o n : List Char) (hn : '.' ∉ n) (hb : '[' ∉ o ++ '.' :: n)
    (hname : W.name c = n) (hq : W.qualname c = o ++ '.' :: n)
    (huniq : ∀ c' ∈ cs, Claims W n c' → c' = c) (hfree : ∀ c' ∈ cs, Claims W (fullName W c) c' → c' = c) :
    lookupTag (registerAll W cs) (fullName W c) = some c := by
  have hf : fullName W c = (W.module c ++ '.' :: o) ++ '.' :: n := by
    unfold fullName
    rw [hq, stripGeneric_eq _ hb]; simp
  have hshort : (registerAll W cs).get? n = some c := registered_unique W n c cs [] huniq (Or.inr ⟨hc, Or.inr hname⟩)
  unfold lookupTag
  cases h : (registerAll W cs).get? (fullName W c) with
  | none =>
    simp only []
    rw [hf, rsplit_append _ _ hn]; exact hshort
  | some c' =>
    by_cases hcl : ∃ c' ∈ cs, Claims W (fullName W c) c'
    · obtain ⟨c2, hc2, hcl2⟩ := hcl
      have := hfree c2 hc2 hcl2
      subst this
      have := registered_unique W (fullName W c2) c2 cs [] hfree (Or.inr ⟨hc2, hcl2⟩)
      unfold registerAll at h
      rw [this] at h; cases h; rfl
    · exfalso
      have : ∀ (cs : List γ) (R : Registry γ), (∀ c' ∈ cs, ¬ Claims W (fullName W c) c') →
          (cs.foldl (registerClass W) R).get? (fullName W c) = R.get? (fullName W c) := by
        intro cs
        induction cs with
        | nil => intro R _; rfl
        | cons c0 cs ih =>
          intro R hh
          show (cs.foldl (registerClass W) (registerClass W R c0)).get? _ = _
          rw [ih _ (fun c' hc' => hh c' (List.mem_cons_of_mem _ hc')), get?_registerClass]
          have h0 := hh c0 List.mem_cons_self
          rw [if_neg (fun e => h0 (Or.inl e)), if_neg (fun e => h0 (Or.inr e))]
      have h2 := this cs [] (fun c' hc' hh => hcl ⟨c', hc', hh⟩)
      unfold registerAll at h
      rw [h2] at h; cases h

end Verif.Element
