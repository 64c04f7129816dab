import Verif.Model.KeyMatch

set_option linter.unusedSectionVars false
set_option linter.unusedSimpArgs false
set_option linter.unusedVariables false

namespace Verif.KeyMatch

/-! ## C59: `get_bins` -/

/-- Total length of the items in a bin. -/
def total (lens : List Nat) (b : List Nat) : Int := (b.map (fun i => ((lens[i]?.getD 0 : Nat) : Int))).foldr (· + ·) 0

theorem total_append (lens b c : List Nat) : total lens (b ++ c) = total lens b + total lens c := by
  induction b with
  | nil => simp [total]
  | cons i t ih =>
    simp only [total, List.cons_append, List.map_cons, List.foldr_cons] at ih ⊢
    omega

theorem total_single (lens : List Nat) (i : Nat) : total lens [i] = ((lens[i]?.getD 0 : Nat) : Int) := by simp [total]

theorem binLoop_flatten (upper : Int) : ∀ (ls : List Nat) (idx : Nat) (n : Int) (cur : List Nat) (bins : List (List Nat)),
    bins.flatten ++ cur = List.range idx → (binLoop upper ls idx n cur bins).flatten = List.range (idx + ls.length)
  | [], idx, n, cur, bins, h => by
    simp only [binLoop]
    cases cur with
    | nil => simpa using h
    | cons a t => simpa using h
  | len :: ls, idx, n, cur, bins, h => by
    have hr : List.range (idx + 1) = List.range idx ++ [idx] := List.range_succ
    simp only [binLoop]
    split
    · rw [binLoop_flatten upper ls (idx + 1) _ _ _ (by rw [hr, ← h, List.append_assoc])]
      congr 1; simp only [List.length_cons]; omega
    · rw [binLoop_flatten upper ls (idx + 1) _ _ _ (by rw [hr, ← h]; simp)]
      congr 1; simp only [List.length_cons]; omega

/-- What a bin may look like. -/
def GoodBin (lens : List Nat) (upper : Int) (b : List Nat) : Prop := total lens b < upper ∨ b.length = 1

theorem binLoop_good (upper : Int) (lens : List Nat) : ∀ (ls : List Nat) (idx : Nat) (n : Int) (cur : List Nat) (bins : List (List Nat)),
    (∀ i, ls[i]? = lens[idx + i]?) → n = total lens cur → (GoodBin lens upper cur ∨ cur = []) →
    (∀ b ∈ bins, GoodBin lens upper b ∨ b = []) →
    ∀ b ∈ binLoop upper ls idx n cur bins, GoodBin lens upper b ∨ b = []
  | [], idx, n, cur, bins, hls, hn, hc, hb => by
    simp only [binLoop]
    split
    · exact hb
    · intro b hb'
      rcases List.mem_append.1 hb' with h | h
      · exact hb b h
      · rw [List.mem_singleton.1 h]; exact hc
  | len :: ls, idx, n, cur, bins, hls, hn, hc, hb => by
    have hlen : lens[idx]? = some len := by have := hls 0; simpa using this.symm
    have hls' : ∀ i, ls[i]? = lens[idx + 1 + i]? := by
      intro i; have := hls (i + 1); simp only [List.getElem?_cons_succ] at this
      rw [this]; congr 1; omega
    have ht : total lens [idx] = (len : Int) := by rw [total_single, hlen]; rfl
    simp only [binLoop]
    split
    · rename_i hlt
      refine binLoop_good upper lens ls (idx + 1) _ _ _ hls' (by rw [total_append, ht, hn]) (Or.inl (Or.inl ?_)) hb
      rw [total_append, ht, ← hn]; exact hlt
    · refine binLoop_good upper lens ls (idx + 1) _ _ _ hls' ht.symm (Or.inl (Or.inr rfl)) ?_
      intro b hb'
      rcases List.mem_append.1 hb' with h | h
      · exact hb b h
      · rw [List.mem_singleton.1 h]; exact hc

theorem binLoop_nonempty (upper : Int) : ∀ (ls : List Nat) (idx : Nat) (n : Int) (cur : List Nat) (bins : List (List Nat)),
    cur ≠ [] → (∀ b ∈ bins, b ≠ []) → ∀ b ∈ binLoop upper ls idx n cur bins, b ≠ []
  | [], idx, n, cur, bins, hc, hb => by
    simp only [binLoop]
    split
    · exact hb
    · intro b hb'
      rcases List.mem_append.1 hb' with h | h
      · exact hb b h
      · rw [List.mem_singleton.1 h]; exact hc
  | len :: ls, idx, n, cur, bins, hc, hb => by
    simp only [binLoop]
    split
    · exact binLoop_nonempty upper ls _ _ _ _ (by simp) hb
    · refine binLoop_nonempty upper ls _ _ _ _ (by simp) ?_
      intro b hb'
      rcases List.mem_append.1 hb' with h | h
      · exact hb b h
      · rw [List.mem_singleton.1 h]; exact hc

theorem binLoop_bins (upper : Int) : ∀ (ls : List Nat) (idx : Nat) (n : Int) (cur : List Nat) (bins : List (List Nat)),
    binLoop upper ls idx n cur bins = bins ++ binLoop upper ls idx n cur []
  | [], idx, n, cur, bins => by simp only [binLoop]; split <;> simp
  | len :: ls, idx, n, cur, bins => by
    simp only [binLoop]
    split
    · exact binLoop_bins upper ls _ _ _ _
    · rw [binLoop_bins upper ls _ _ _ (bins ++ [cur]), binLoop_bins upper ls _ _ _ ([] ++ [cur])]; simp

/-- The bins together are `0, ..., n-1` in order. -/
theorem C59_concat (lens : List Nat) (upper : Int) : (getBins lens upper).flatten = List.range lens.length := by
  have := binLoop_flatten upper lens 0 0 [] [] (by simp)
  simpa [getBins] using this

/-- Each bin is below the bound, or a single item, or empty. -/
theorem C59_bound (lens : List Nat) (upper : Int) :
    ∀ b ∈ getBins lens upper, total lens b < upper ∨ b.length = 1 ∨ b = [] := by
  intro b hb
  have := binLoop_good upper lens lens 0 0 [] [] (by simp) (by simp [total]) (Or.inr rfl) (by simp) b hb
  rcases this with (h | h) | h
  · exact Or.inl h
  · exact Or.inr (Or.inl h)
  · exact Or.inr (Or.inr h)

/-- No bin is empty, provided the first item is below the bound.  The full claim has no such condition and fails without it. -/
theorem C180_nonempty_partial (lens : List Nat) (upper : Int) (h : ∀ len, lens.head? = some len → (len : Int) < upper) :
    ∀ b ∈ getBins lens upper, b ≠ [] := by
  cases lens with
  | nil => simp [getBins, binLoop]
  | cons len ls =>
    have h1 : (0 : Int) + len < upper := by have := h len rfl; omega
    simp only [getBins, binLoop, if_pos h1]
    exact binLoop_nonempty upper ls _ _ _ _ (by simp) (by simp)

/-- Only the first bin can be empty. -/
theorem C59_only_first_empty (lens : List Nat) (upper : Int) : ∀ b ∈ (getBins lens upper).tail, b ≠ [] := by
  cases lens with
  | nil => simp [getBins, binLoop]
  | cons len ls =>
    simp only [getBins, binLoop]
    split
    · intro b hb
      exact binLoop_nonempty upper ls _ _ _ _ (by simp) (by simp) b (List.mem_of_mem_tail hb)
    · rw [binLoop_bins]
      simp only [List.nil_append, List.singleton_append, List.tail_cons]
      exact binLoop_nonempty upper ls _ _ _ _ (by simp) (by simp)

/-- An oversized first item leaves an empty bin in front. -/
theorem C180_empty_bin_violation : getBins [5, 1] 3 = [[], [0], [1]] := by decide

example : getBins [1, 1, 4, 1, 1, 2] 4 = [[0, 1], [2], [3, 4], [5]] := by decide

/-! ## C60: `fuzzy_match_keys` -/

variable {κ ν : Type} [DecidableEq κ]

/-- The similarity search only returns one of the words, a similar one, and returns one when there is one; sets are iterated completely. -/
structure Lawful (c : Cfg κ ν) (sim : κ → κ → Bool) : Prop where
  some : ∀ k l m, c.best k l = some m → m ∈ l ∧ sim k m = true
  none : ∀ k l, c.best k l = none → ∀ m ∈ l, sim k m = false
  perm : ∀ {β : Type} (i : Nat) (l : List β), (c.ord i l).Perm l

/-- A correspondence of unexpected input keys with missing expected keys. -/
structure Matching (sim : κ → κ → Bool) (fields : List κ) (d : Dict κ ν) (ps : List (κ × κ)) : Prop where
  src_once : (ps.map Prod.fst).Nodup
  tgt_once : (ps.map Prod.snd).Nodup
  src : ∀ p ∈ ps, p.1 ∈ d.keys ∧ p.1 ∉ fields
  tgt : ∀ p ∈ ps, p.2 ∈ fields ∧ p.2 ∉ d.keys
  similar : ∀ p ∈ ps, sim p.1 p.2 = true

/-- Input keys that are neither expected nor matched. -/
def LeftIn (fields : List κ) (d : Dict κ ν) (ps : List (κ × κ)) (k : κ) : Prop := k ∈ d.keys ∧ k ∉ fields ∧ k ∉ ps.map Prod.fst

/-- Expected keys that are neither present nor matched. -/
def LeftExp (fields : List κ) (d : Dict κ ν) (ps : List (κ × κ)) (k : κ) : Prop := k ∈ fields ∧ k ∉ d.keys ∧ k ∉ ps.map Prod.snd

/-- The output that belongs to a correspondence. -/
structure Output (mode : Mode) (fillFor : κ → ν) (fields : List κ) (d : Dict κ ν) (ps : List (κ × κ)) (out : Dict κ ν) : Prop where
  exact : ∀ k, k ∈ fields → k ∈ d.keys → out.get? k = d.get? k
  matched : ∀ p ∈ ps, out.get? p.2 = d.get? p.1
  missing : ∀ k, LeftExp fields d ps k → out.get? k = if mode = .fill ∨ mode = .force then some (fillFor k) else none
  extra : ∀ k, LeftIn fields d ps k → out.get? k = if mode = .ignore ∨ mode = .fill then d.get? k else none
  sources : ∀ p ∈ ps, out.get? p.1 = none
  nothing_else : ∀ k, k ∉ fields → k ∉ d.keys → out.get? k = none

/-- Invariant of the fuzzy pass; `todo` is still to be looked at. -/
structure Inv (sim : κ → κ → Bool) (mode : Mode) (fields : List κ) (d : Dict κ ν) (todo : List (κ × ν)) (ps : List (κ × κ)) (s : St κ ν) : Prop where
  m : Matching sim fields d ps
  todo_once : (todo.map Prod.fst).Nodup
  todo_src : ∀ kv ∈ todo, kv.1 ∉ ps.map Prod.fst ∧ kv.1 ∉ fields ∧ d.get? kv.1 = some kv.2
  rem_nodup : s.remaining.Nodup
  rem : ∀ k, k ∈ s.remaining ↔ LeftExp fields d ps k
  mat : ∀ k, k ∈ s.matched ↔ (k ∈ d.keys ∧ k ∈ fields) ∨ k ∈ ps.map Prod.fst
  exact : ∀ k, k ∈ fields → k ∈ d.keys → s.out.get? k = d.get? k
  matched : ∀ p ∈ ps, s.out.get? p.2 = d.get? p.1
  missing : ∀ k, LeftExp fields d ps k → s.out.get? k = none
  extra : ∀ k, k ∉ fields → s.out.get? k = none ∨ (mode = .ignore ∧ k ∉ ps.map Prod.fst ∧ k ∉ todo.map Prod.fst ∧ s.out.get? k = d.get? k)

theorem get?_filter_key (p : κ → Bool) : ∀ (d : Dict κ ν) (k : κ), Dict.get? (d.filter (fun kv => p kv.1)) k = if p k then d.get? k else none
  | [], k => by simp
  | (k', v) :: d, k => by
    have ih := get?_filter_key p d k
    by_cases hp : p k' = true
    · rw [List.filter_cons, if_pos hp, Dict.get?_cons, Dict.get?_cons]
      by_cases hk : k' = k
      · rw [if_pos hk, if_pos hk, if_pos (hk ▸ hp)]
      · rw [if_neg hk, if_neg hk, ih]
    · rw [List.filter_cons, if_neg hp, ih, Dict.get?_cons]
      by_cases hk : k' = k
      · subst hk; rw [if_neg hp, if_neg hp]
      · rw [if_neg hk]

theorem mem_keys_filter (p : κ → Bool) (d : Dict κ ν) (k : κ) :
    k ∈ Dict.keys (d.filter (fun kv => p kv.1)) ↔ k ∈ d.keys ∧ p k = true := by
  simp only [Dict.keys, List.mem_map, List.mem_filter]
  constructor
  · rintro ⟨kv, ⟨h1, h2⟩, rfl⟩; exact ⟨⟨kv, h1, rfl⟩, h2⟩
  · rintro ⟨⟨kv, h1, rfl⟩, h2⟩; exact ⟨kv, ⟨h1, h2⟩, rfl⟩

theorem inv_init (c : Cfg κ ν) (sim : κ → κ → Bool) (hc : Lawful c sim) (fields : List κ) (hf : fields.Nodup) (d : Dict κ ν) (hd : d.WF) :
    Inv sim c.mode fields d (c.ord 0 (d.filter (fun kv => !decide (kv.1 ∈ fields)))) [] (exactPass fields d) where
  m := ⟨by simp, by simp, by simp, by simp, by simp⟩
  todo_once := by
    refine ((hc.perm 0 _).map Prod.fst).nodup_iff.2 ?_
    exact List.Nodup.sublist (List.filter_sublist.map _) hd
  todo_src := by
    intro kv hkv
    have := (hc.perm 0 _).mem_iff.1 hkv
    simp only [List.mem_filter, Bool.not_eq_true', decide_eq_false_iff_not] at this
    exact ⟨by simp, this.2, Dict.get?_of_mem hd this.1⟩
  rem_nodup := List.Nodup.sublist List.filter_sublist hf
  rem := by
    intro k
    simp only [exactPass, List.mem_filter, LeftExp, Bool.not_eq_true', Dict.has_eq_false_iff]
    simp
  mat := by
    intro k
    simp only [exactPass]
    rw [mem_keys_filter (fun k => decide (k ∈ fields))]
    simp
  exact := by
    intro k h1 h2
    simp only [exactPass]
    rw [get?_filter_key (fun k => decide (k ∈ fields)), if_pos (by simpa using h1)]
  matched := by simp
  missing := by
    intro k h
    simp only [exactPass]
    rw [get?_filter_key (fun k => decide (k ∈ fields)), if_pos (by simpa using h.1)]
    exact (Dict.get?_eq_none_iff _ _).2 h.2.1
  extra := by
    intro k h
    left
    simp only [exactPass]
    rw [get?_filter_key (fun k => decide (k ∈ fields)), if_neg (by simpa using h)]

theorem accept_some {c : Cfg κ ν} {o : Option κ} {m : κ} (h : accept c o = some m) : o = some m ∧ c.falsy m = false := by
  cases o with
  | none => simp [accept] at h
  | some k =>
    simp only [accept] at h
    split at h
    · cases h
    · injection h with h; subst h; rename_i hnf; exact ⟨rfl, Bool.eq_false_iff.2 hnf⟩

theorem accept_none {c : Cfg κ ν} {o : Option κ} (h : accept c o = none) : o = none ∨ ∃ m, o = some m ∧ c.falsy m = true := by
  cases o with
  | none => exact Or.inl rfl
  | some k =>
    simp only [accept] at h
    split at h
    · exact Or.inr ⟨k, rfl, by assumption⟩
    · cases h

theorem fuzzyStep_some {c : Cfg κ ν} {i : Nat} {kv : κ × ν} {s : St κ ν} {m : κ} (h : accept c (c.best kv.1 (c.ord i s.remaining)) = some m) :
    fuzzyStep c i kv s = { out := s.out.set m kv.2, remaining := s.remaining.erase m, matched := s.matched ++ [kv.1] } := by
  simp only [fuzzyStep, h]

theorem fuzzyStep_none {c : Cfg κ ν} {i : Nat} {kv : κ × ν} {s : St κ ν} (h : accept c (c.best kv.1 (c.ord i s.remaining)) = none) :
    fuzzyStep c i kv s = if c.mode = .ignore then { s with out := s.out.set kv.1 kv.2 } else s := by
  simp only [fuzzyStep, h]

theorem inv_step (c : Cfg κ ν) (sim : κ → κ → Bool) (hc : Lawful c sim) (fields : List κ) (d : Dict κ ν) (i : Nat) (kv : κ × ν)
    (todo : List (κ × ν)) (ps : List (κ × κ)) (s : St κ ν) (h : Inv sim c.mode fields d (kv :: todo) ps s) :
    ∃ ps', Inv sim c.mode fields d todo ps' (fuzzyStep c i kv s) ∧
      (ps' = ps ∨ ∃ m, ps' = ps ++ [(kv.1, m)]) := by
  obtain ⟨hsrc1, hsrc2, hsrc3⟩ := h.todo_src kv (by simp)
  have hkv : kv.1 ∈ d.keys := Dict.mem_keys_of_get? hsrc3
  have honce := h.todo_once
  simp only [List.map_cons, List.nodup_cons] at honce
  cases ha : accept c (c.best kv.1 (c.ord i s.remaining)) with
  | some m =>
    obtain ⟨hb, _⟩ := accept_some ha
    obtain ⟨hml, hms⟩ := hc.some _ _ _ hb
    have hmr : m ∈ s.remaining := (hc.perm i _).mem_iff.1 hml
    have hmx := (h.rem m).1 hmr
    refine ⟨ps ++ [(kv.1, m)], ?_, Or.inr ⟨m, rfl⟩⟩
    rw [fuzzyStep_some ha]
    have hne : ∀ k, k ∈ d.keys → m ≠ k := fun k hk e => hmx.2.1 (e ▸ hk)
    constructor
    · constructor
      · simp only [List.map_append, List.map_cons, List.map_nil]
        rw [List.nodup_append]
        refine ⟨h.m.src_once, by simp, ?_⟩
        intro a ha' b hb' e
        rw [List.mem_singleton.1 hb'] at e; exact hsrc1 (e ▸ ha')
      · simp only [List.map_append, List.map_cons, List.map_nil]
        rw [List.nodup_append]
        refine ⟨h.m.tgt_once, by simp, ?_⟩
        intro a ha' b hb' e
        rw [List.mem_singleton.1 hb'] at e; exact hmx.2.2 (e ▸ ha')
      · intro p hp
        rcases List.mem_append.1 hp with hp | hp
        · exact h.m.src p hp
        · rw [List.mem_singleton.1 hp]; exact ⟨hkv, hsrc2⟩
      · intro p hp
        rcases List.mem_append.1 hp with hp | hp
        · exact h.m.tgt p hp
        · rw [List.mem_singleton.1 hp]; exact ⟨hmx.1, hmx.2.1⟩
      · intro p hp
        rcases List.mem_append.1 hp with hp | hp
        · exact h.m.similar p hp
        · rw [List.mem_singleton.1 hp]; exact hms
    · exact honce.2
    · intro kv' hkv'
      obtain ⟨a1, a2, a3⟩ := h.todo_src kv' (by simp [hkv'])
      refine ⟨?_, a2, a3⟩
      simp only [List.map_append, List.map_cons, List.map_nil, List.mem_append, List.mem_singleton, not_or]
      refine ⟨a1, fun e => honce.1 ?_⟩
      rw [← e]; exact List.mem_map_of_mem hkv'
    · exact h.rem_nodup.erase _
    · intro k
      rw [h.rem_nodup.mem_erase_iff, h.rem k]
      simp only [LeftExp, List.map_append, List.map_cons, List.map_nil, List.mem_append, List.mem_singleton, not_or]
      constructor
      · rintro ⟨h1, h2, h3, h4⟩; exact ⟨h2, h3, h4, h1⟩
      · rintro ⟨h2, h3, h4, h1⟩; exact ⟨h1, h2, h3, h4⟩
    · intro k
      simp only [List.mem_append, List.mem_singleton, h.mat k, List.map_append, List.map_cons, List.map_nil, or_assoc]
    · intro k h1 h2
      rw [Dict.get?_set, if_neg (by first | exact hne k h2 | exact (hne k h2).symm)]
      exact h.exact k h1 h2
    · intro p hp
      rcases List.mem_append.1 hp with hp | hp
      · have : m ≠ p.2 := fun e => hmx.2.2 (e ▸ List.mem_map_of_mem hp)
        rw [Dict.get?_set, if_neg (by first | exact this | exact this.symm)]
        exact h.matched p hp
      · rw [List.mem_singleton.1 hp, Dict.get?_set, if_pos rfl, hsrc3]
    · intro k hk
      simp only [LeftExp, List.map_append, List.map_cons, List.map_nil, List.mem_append, List.mem_singleton, not_or] at hk
      rw [Dict.get?_set, if_neg (by first | exact hk.2.2.2 | exact Ne.symm hk.2.2.2)]
      exact h.missing k ⟨hk.1, hk.2.1, hk.2.2.1⟩
    · intro k hk
      have : m ≠ k := fun e => hk (e ▸ hmx.1)
      rw [Dict.get?_set, if_neg (by first | exact this | exact this.symm)]
      rcases h.extra k hk with he | ⟨e1, e2, e3, e4⟩
      · exact Or.inl he
      · simp only [List.map_cons, List.mem_cons, not_or] at e3
        refine Or.inr ⟨e1, ?_, e3.2, e4⟩
        simp only [List.map_append, List.map_cons, List.map_nil, List.mem_append, List.mem_singleton, not_or]
        exact ⟨e2, e3.1⟩
  | none =>
    refine ⟨ps, ?_, Or.inl rfl⟩
    rw [fuzzyStep_none ha]
    have htodo : ∀ kv' ∈ todo, kv'.1 ∉ ps.map Prod.fst ∧ kv'.1 ∉ fields ∧ d.get? kv'.1 = some kv'.2 :=
      fun kv' hkv' => h.todo_src kv' (by simp [hkv'])
    have hextra : ∀ k, k ∉ fields → s.out.get? k = none ∨
        (c.mode = .ignore ∧ k ∉ ps.map Prod.fst ∧ k ∉ todo.map Prod.fst ∧ s.out.get? k = d.get? k) := by
      intro k hk
      rcases h.extra k hk with he | ⟨e1, e2, e3, e4⟩
      · exact Or.inl he
      · simp only [List.map_cons, List.mem_cons, not_or] at e3
        exact Or.inr ⟨e1, e2, e3.2, e4⟩
    by_cases hm : c.mode = .ignore
    · rw [if_pos hm]
      have hne : ∀ k, k ∈ fields → kv.1 ≠ k := fun k hk e => hsrc2 (e ▸ hk)
      refine ⟨h.m, honce.2, htodo, h.rem_nodup, h.rem, h.mat, ?_, ?_, ?_, ?_⟩
      · intro k h1 h2
        rw [Dict.get?_set, if_neg (by first | exact hne k h1 | exact (hne k h1).symm)]
        exact h.exact k h1 h2
      · intro p hp
        have := hne p.2 (h.m.tgt p hp).1
        rw [Dict.get?_set, if_neg (by first | exact this | exact this.symm)]
        exact h.matched p hp
      · intro k hk
        have := hne k hk.1
        rw [Dict.get?_set, if_neg (by first | exact this | exact this.symm)]
        exact h.missing k hk
      · intro k hk
        by_cases e : kv.1 = k
        · subst e
          right
          refine ⟨hm, hsrc1, honce.1, ?_⟩
          rw [Dict.get?_set, if_pos rfl, hsrc3]
        · rw [Dict.get?_set, if_neg (by first | exact e | exact Ne.symm e)]
          exact hextra k hk
    · rw [if_neg hm]
      exact ⟨h.m, honce.2, htodo, h.rem_nodup, h.rem, h.mat, h.exact, h.matched, h.missing, hextra⟩

/-- The fuzzy pass ends with a correspondence. -/
theorem inv_loop (c : Cfg κ ν) (sim : κ → κ → Bool) (hc : Lawful c sim) (fields : List κ) (d : Dict κ ν) :
    ∀ (todo : List (κ × ν)) (i : Nat) (ps : List (κ × κ)) (s : St κ ν), Inv sim c.mode fields d todo ps s →
    ∃ todo' ps', Inv sim c.mode fields d todo' ps' (fuzzyLoop c i todo s)
  | [], i, ps, s, h => ⟨[], ps, h⟩
  | kv :: rest, i, ps, s, h => by
    simp only [fuzzyLoop]
    split
    · exact ⟨_, ps, h⟩
    · obtain ⟨ps', h', _⟩ := inv_step c sim hc fields d i kv rest ps s h
      exact inv_loop c sim hc fields d rest (i + 1) ps' _ h'

theorem inv_passes (c : Cfg κ ν) (sim : κ → κ → Bool) (hc : Lawful c sim) (fields : List κ) (hf : fields.Nodup) (d : Dict κ ν) (hd : d.WF) :
    ∃ todo ps, Inv sim c.mode fields d todo ps (passes c fields d) := by
  have h0 := inv_init c sim hc fields hf d hd
  simp only [passes]
  split
  · exact inv_loop c sim hc fields d _ 2 [] _ h0
  · exact ⟨_, [], h0⟩

theorem get?_writeAll (kvs : List (κ × ν)) (h : (kvs.map Prod.fst).Nodup) (out : Dict κ ν) (k : κ) :
    (writeAll out kvs).get? k = (Dict.get? kvs k).or (out.get? k) := Dict.get?_update h out k

theorem get?_perm {a b : List (κ × ν)} (hp : a.Perm b) (h : (b.map Prod.fst).Nodup) (k : κ) : Dict.get? a k = Dict.get? b k := by
  have ha : (a.map Prod.fst).Nodup := (hp.map Prod.fst).nodup_iff.2 h
  cases hb : Dict.get? b k with
  | some v => exact Dict.get?_of_mem ha (hp.mem_iff.2 (Dict.mem_of_get? hb))
  | none =>
    rw [Dict.get?_eq_none_iff] at hb ⊢
    intro hk; exact hb ((hp.map Prod.fst).mem_iff.1 hk)

theorem get?_fill (f : κ → ν) : ∀ (l : List κ) (k : κ), Dict.get? (l.map (fun k => (k, f k))) k = if k ∈ l then some (f k) else none
  | [], k => by simp
  | a :: l, k => by
    simp only [List.map_cons, Dict.get?_cons, get?_fill f l k, List.mem_cons]
    by_cases h : a = k
    · subst h; simp
    · rw [if_neg h]; simp [Ne.symm h]

theorem unmatched_nodup (d : Dict κ ν) (hd : d.WF) (s : St κ ν) : ((unmatchedInput d s).map Prod.fst).Nodup :=
  List.Nodup.sublist (List.filter_sublist.map _) hd

theorem get?_unmatched (d : Dict κ ν) (s : St κ ν) (k : κ) :
    Dict.get? (unmatchedInput d s) k = if k ∈ s.matched then none else d.get? k := by
  simp only [unmatchedInput]
  rw [get?_filter_key (fun k => !decide (k ∈ s.matched))]
  by_cases h : k ∈ s.matched <;> simp [h]

/-- The output of the last phase belongs to the correspondence found by the passes. -/
theorem finish_output (c : Cfg κ ν) (sim : κ → κ → Bool) (hc : Lawful c sim) (fields : List κ) (d : Dict κ ν) (hd : d.WF)
    {todo : List (κ × ν)} {ps : List (κ × κ)} {s : St κ ν} (h : Inv sim c.mode fields d todo ps s) :
    Output c.mode c.fillFor fields d ps (finish c d s) := by
  have hu := unmatched_nodup d hd s
  have hw1 : ∀ (out : Dict κ ν) k, (writeAll out (c.ord 1 (unmatchedInput d s))).get? k
      = (if k ∈ s.matched then none else d.get? k).or (out.get? k) := by
    intro out k
    rw [get?_writeAll _ (((hc.perm 1 _).map Prod.fst).nodup_iff.2 hu), get?_perm (hc.perm 1 _) hu, get?_unmatched]
  have hfn : ((s.remaining.map (fun k => (k, c.fillFor k))).map Prod.fst).Nodup := by
    have he : (Prod.fst ∘ fun k => (k, c.fillFor k)) = (id : κ → κ) := rfl
    rw [List.map_map, he, List.map_id]; exact h.rem_nodup
  have hw2 : ∀ (out : Dict κ ν) k, (writeAll out ((c.ord 1 s.remaining).map (fun k => (k, c.fillFor k)))).get? k
      = (if k ∈ s.remaining then some (c.fillFor k) else none).or (out.get? k) := by
    intro out k
    have hp := (hc.perm 1 s.remaining).map (fun k => (k, c.fillFor k))
    rw [get?_writeAll _ ((hp.map Prod.fst).nodup_iff.2 hfn), get?_perm hp hfn, get?_fill]
  -- membership facts
  have m1 : ∀ k, k ∈ fields → k ∈ d.keys → k ∈ s.matched ∧ k ∉ s.remaining := fun k a b =>
    ⟨(h.mat k).2 (Or.inl ⟨b, a⟩), fun hr => ((h.rem k).1 hr).2.1 b⟩
  have m2 : ∀ p ∈ ps, p.2 ∉ s.remaining ∧ d.get? p.2 = none := fun p hp =>
    ⟨fun hr => ((h.rem _).1 hr).2.2 (List.mem_map_of_mem hp), (Dict.get?_eq_none_iff _ _).2 (h.m.tgt p hp).2⟩
  have m3 : ∀ k, LeftExp fields d ps k → k ∈ s.remaining ∧ d.get? k = none := fun k hk =>
    ⟨(h.rem k).2 hk, (Dict.get?_eq_none_iff _ _).2 hk.2.1⟩
  have m4 : ∀ k, LeftIn fields d ps k → k ∉ s.matched ∧ k ∉ s.remaining := fun k hk =>
    ⟨fun hm => by
      rcases (h.mat k).1 hm with ⟨_, b⟩ | b
      · exact hk.2.1 b
      · exact hk.2.2 b, fun hr => hk.2.1 ((h.rem k).1 hr).1⟩
  have m5 : ∀ p ∈ ps, p.1 ∈ s.matched ∧ p.1 ∉ s.remaining ∧ s.out.get? p.1 = none := fun p hp => by
    have hin : p.1 ∈ ps.map Prod.fst := List.mem_map_of_mem hp
    refine ⟨(h.mat _).2 (Or.inr hin), fun hr => (h.m.src p hp).2 ((h.rem _).1 hr).1, ?_⟩
    rcases h.extra p.1 (h.m.src p hp).2 with e | ⟨_, e, _⟩
    · exact e
    · exact absurd hin e
  have m6 : ∀ k, k ∉ fields → k ∉ d.keys → k ∉ s.remaining ∧ d.get? k = none ∧ s.out.get? k = none := fun k a b => by
    have hn := (Dict.get?_eq_none_iff d k).2 b
    refine ⟨fun hr => a ((h.rem k).1 hr).1, hn, ?_⟩
    rcases h.extra k a with e | ⟨_, _, _, e⟩
    · exact e
    · rw [e, hn]
  have m7 : ∀ k, LeftIn fields d ps k → c.mode ≠ .ignore → s.out.get? k = none := fun k hk hm => by
    rcases h.extra k hk.2.1 with e | ⟨e, _⟩
    · exact e
    · exact absurd e hm
  have m8 : ∀ k, LeftIn fields d ps k → (d.get? k).isSome := fun k hk => (Dict.get?_isSome_iff _ _).2 hk.1
  refine ⟨?_, ?_, ?_, ?_, ?_, ?_⟩
  · intro k h1 h2
    obtain ⟨a, b⟩ := m1 k h1 h2
    have he := h.exact k h1 h2
    cases hm : c.mode <;> simp only [finish, hm, hw1, hw2, if_pos a, if_neg b, Option.none_or] <;> exact he
  · intro p hp
    obtain ⟨a, b⟩ := m2 p hp
    have he := h.matched p hp
    cases hm : c.mode <;> simp only [finish, hm, hw1, hw2, b, if_neg a, Option.none_or, ite_self] <;> exact he
  · intro k hk
    obtain ⟨a, b⟩ := m3 k hk
    have he := h.missing k hk
    cases hm : c.mode <;> simp [finish, hm, hw1, hw2, b, a, he]
  · intro k hk
    obtain ⟨a, b⟩ := m4 k hk
    obtain ⟨v, hv⟩ := Option.isSome_iff_exists.1 (m8 k hk)
    have h7 := m7 k hk
    cases hm : c.mode <;> simp [finish, hm, hw1, hw2, b, a, hv] <;> exact h7 (by simp [hm])
  · intro p hp
    obtain ⟨a, b, e⟩ := m5 p hp
    cases hm : c.mode <;> simp [finish, hm, hw1, hw2, b, a, e]
  · intro k h1 h2
    obtain ⟨a, b, e⟩ := m6 k h1 h2
    cases hm : c.mode <;> simp [finish, hm, hw1, hw2, b, a, e]

theorem unmatched_empty_iff {sim : κ → κ → Bool} {mode : Mode} {fields : List κ} {d : Dict κ ν} {todo : List (κ × ν)} {ps : List (κ × κ)}
    {s : St κ ν} (h : Inv sim mode fields d todo ps s) : (unmatchedInput d s).isEmpty = false ↔ ∃ k, LeftIn fields d ps k := by
  rw [← Bool.not_eq_true, List.isEmpty_iff]
  constructor
  · intro hne
    obtain ⟨kv, hkv⟩ := List.exists_mem_of_ne_nil _ hne
    simp only [unmatchedInput, List.mem_filter, Bool.not_eq_true', decide_eq_false_iff_not] at hkv
    have hk : kv.1 ∈ d.keys := List.mem_map_of_mem hkv.1
    refine ⟨kv.1, hk, fun hf => hkv.2 ((h.mat _).2 (Or.inl ⟨hk, hf⟩)), fun hp => hkv.2 ((h.mat _).2 (Or.inr hp))⟩
  · rintro ⟨k, h1, h2, h3⟩ hnil
    obtain ⟨kv, hkv, rfl⟩ := List.mem_map.1 h1
    have : kv ∈ unmatchedInput d s := by
      simp only [unmatchedInput, List.mem_filter, Bool.not_eq_true', decide_eq_false_iff_not]
      refine ⟨hkv, fun hm => ?_⟩
      rcases (h.mat _).1 hm with ⟨_, b⟩ | b
      · exact h2 b
      · exact h3 b
    rw [hnil] at this; simp at this

theorem remaining_empty_iff {sim : κ → κ → Bool} {mode : Mode} {fields : List κ} {d : Dict κ ν} {todo : List (κ × ν)} {ps : List (κ × κ)}
    {s : St κ ν} (h : Inv sim mode fields d todo ps s) : s.remaining.isEmpty = false ↔ ∃ k, LeftExp fields d ps k := by
  rw [← Bool.not_eq_true, List.isEmpty_iff]
  constructor
  · intro hne
    obtain ⟨k, hk⟩ := List.exists_mem_of_ne_nil _ hne
    exact ⟨k, (h.rem k).1 hk⟩
  · rintro ⟨k, hk⟩ hnil
    have := (h.rem k).2 hk
    rw [hnil] at this; simp at this

/-- There is a correspondence of unexpected input keys with missing expected keys, each similar to the other and each used once, such that
raise mode errors exactly if an input key is left over, strict errors exactly if an expected key is left over, and otherwise the result is
the output that belongs to the correspondence. -/
theorem C60_spec (c : Cfg κ ν) (sim : κ → κ → Bool) (hc : Lawful c sim) (fields : List κ) (hf : fields.Nodup) (hne : fields ≠ [])
    (d : Dict κ ν) (hd : d.WF) :
    ∃ ps, Matching sim fields d ps ∧
      ((∃ e, fuzzyMatchKeys c fields d = .error e) ↔
        (c.mode = .raise ∧ ∃ k, LeftIn fields d ps k) ∨ (c.strict = true ∧ ∃ k, LeftExp fields d ps k)) ∧
      (∀ out, fuzzyMatchKeys c fields d = .ok out → Output c.mode c.fillFor fields d ps out) := by
  obtain ⟨todo, ps, h⟩ := inv_passes c sim hc fields hf d hd
  refine ⟨ps, h.m, ?_, ?_⟩
  · rw [← unmatched_empty_iff h, ← remaining_empty_iff h]
    simp only [fuzzyMatchKeys]
    rw [if_neg (by rw [List.isEmpty_iff]; exact hne)]
    by_cases h1 : c.mode = .raise ∧ (unmatchedInput d (passes c fields d)).isEmpty = false
    · rw [if_pos (by simp [h1.1, h1.2])]
      exact ⟨fun _ => Or.inl h1, fun _ => ⟨_, rfl⟩⟩
    · rw [if_neg (by simpa using h1)]
      by_cases h2 : c.strict = true ∧ (passes c fields d).remaining.isEmpty = false
      · rw [if_pos (by simp [h2.1, h2.2])]
        exact ⟨fun _ => Or.inr h2, fun _ => ⟨_, rfl⟩⟩
      · rw [if_neg (by simpa using h2)]
        constructor
        · rintro ⟨e, he⟩; cases he
        · rintro (h' | h')
          · exact absurd h' h1
          · exact absurd h' h2
  · intro out hout
    simp only [fuzzyMatchKeys] at hout
    rw [if_neg (by rw [List.isEmpty_iff]; exact hne)] at hout
    split at hout
    · cases hout
    · split at hout
      · cases hout
      · injection hout with hout
        rw [← hout]
        exact finish_output c sim hc fields d hd h

theorem max_loop (c : Cfg κ ν) (sim : κ → κ → Bool) (hc : Lawful c sim) :
    ∀ (todo : List (κ × ν)) (i : Nat) (s : St κ ν) (done : List κ), s.remaining.Nodup →
    (∀ m ∈ s.remaining, c.falsy m = false) →
    (∀ k ∈ done, k ∉ s.matched → ∀ m ∈ s.remaining, sim k m = false) →
    ∀ k, (k ∈ done ∨ k ∈ todo.map Prod.fst) → k ∉ (fuzzyLoop c i todo s).matched →
      ∀ m ∈ (fuzzyLoop c i todo s).remaining, sim k m = false
  | [], i, s, done, _, hfal, hdone => by
    intro k hk hm m hmr
    rcases hk with hk | hk
    · exact hdone k hk hm m hmr
    · simp at hk
  | kv :: rest, i, s, done, hnd, hfal, hdone => by
    intro k hk hm m hmr
    simp only [fuzzyLoop] at hm hmr
    by_cases he : s.remaining.isEmpty = true
    · rw [if_pos he] at hmr
      rw [List.isEmpty_iff] at he
      rw [he] at hmr; simp at hmr
    · rw [if_neg he] at hm hmr
      have hstep : (fuzzyStep c i kv s).remaining.Nodup ∧ (∀ m ∈ (fuzzyStep c i kv s).remaining, c.falsy m = false) ∧
          (∀ k ∈ done ++ [kv.1], k ∉ (fuzzyStep c i kv s).matched → ∀ m ∈ (fuzzyStep c i kv s).remaining, sim k m = false) := by
        cases ha : accept c (c.best kv.1 (c.ord i s.remaining)) with
        | some w =>
          rw [fuzzyStep_some ha]
          refine ⟨hnd.erase _, fun m hm' => hfal m (List.mem_of_mem_erase hm'), ?_⟩
          intro k' hk' hnm m' hm'
          simp only [List.mem_append, List.mem_singleton, not_or] at hk' hnm
          rcases hk' with hk' | hk'
          · exact hdone k' hk' hnm.1 m' (List.mem_of_mem_erase hm')
          · exact absurd hk' hnm.2
        | none =>
          have hb : c.best kv.1 (c.ord i s.remaining) = none := by
            rcases accept_none ha with hb | ⟨w, hb, hw⟩
            · exact hb
            · have := hfal w ((hc.perm i _).mem_iff.1 (hc.some _ _ _ hb).1)
              rw [hw] at this; cases this
          have hsame : (fuzzyStep c i kv s).remaining = s.remaining ∧ (fuzzyStep c i kv s).matched = s.matched := by
            rw [fuzzyStep_none ha]; split <;> exact ⟨rfl, rfl⟩
          rw [hsame.1, hsame.2]
          refine ⟨hnd, hfal, ?_⟩
          intro k' hk' hnm m' hm'
          rcases List.mem_append.1 hk' with hk' | hk'
          · exact hdone k' hk' hnm m' hm'
          · rw [List.mem_singleton.1 hk']
            exact hc.none _ _ hb m' ((hc.perm i _).mem_iff.2 hm')
      refine max_loop c sim hc rest (i + 1) _ (done ++ [kv.1]) hstep.1 hstep.2.1 hstep.2.2 k ?_ hm m hmr
      simp only [List.mem_append, List.mem_singleton]
      rcases hk with hk | hk
      · exact Or.inl (Or.inl hk)
      · rcases List.mem_cons.1 (by simpa only [List.map_cons] using hk) with hk | hk
        · exact Or.inl (Or.inr hk)
        · exact Or.inr hk

/-- With fuzzy matching, no left-over input key is similar to a left-over expected key (if no expected key is the empty string). -/
theorem C60_no_match_left (c : Cfg κ ν) (sim : κ → κ → Bool) (hc : Lawful c sim) (fields : List κ) (hf : fields.Nodup)
    (d : Dict κ ν) (hd : d.WF) (hfuzzy : c.fuzzy = true) (hfal : ∀ k ∈ fields, c.falsy k = false) :
    ∀ k ∈ d.keys, k ∉ fields → k ∉ (passes c fields d).matched → ∀ m ∈ (passes c fields d).remaining, sim k m = false := by
  intro k hk hkf hm m hmr
  simp only [passes, hfuzzy, if_true] at hm hmr
  refine max_loop c sim hc _ 2 (exactPass fields d) [] (List.Nodup.sublist List.filter_sublist hf)
    (fun m hm => hfal m (List.mem_filter.1 hm).1) (by simp) k (Or.inr ?_) hm m hmr
  refine ((hc.perm 0 _).map Prod.fst).mem_iff.2 ?_
  obtain ⟨kv, hkv, rfl⟩ := List.mem_map.1 hk
  exact List.mem_map_of_mem (List.mem_filter.2 ⟨hkv, by simpa using hkf⟩)

theorem exact_outcome (c : Cfg κ ν) (sim : κ → κ → Bool) (hc : Lawful c sim) (fields : List κ) (hne : fields ≠ []) (d : Dict κ ν) (hd : d.WF)
    {todo : List (κ × ν)} {ps : List (κ × κ)} (h : Inv sim c.mode fields d todo ps (passes c fields d)) :
    ((((c.mode = .raise ∧ ∃ k, LeftIn fields d ps k) ∨ (c.strict = true ∧ ∃ k, LeftExp fields d ps k)) ∧ fuzzyMatchKeys c fields d = .error .valueError) ∨
     (¬ ((c.mode = .raise ∧ ∃ k, LeftIn fields d ps k) ∨ (c.strict = true ∧ ∃ k, LeftExp fields d ps k)) ∧
       ∃ out, fuzzyMatchKeys c fields d = .ok out ∧ Output c.mode c.fillFor fields d ps out)) := by
  rw [← unmatched_empty_iff h, ← remaining_empty_iff h]
  simp only [fuzzyMatchKeys]
  rw [if_neg (by rw [List.isEmpty_iff]; exact hne)]
  by_cases h1 : c.mode = .raise ∧ (unmatchedInput d (passes c fields d)).isEmpty = false
  · rw [if_pos (by simp [h1.1, h1.2])]
    exact Or.inl ⟨Or.inl h1, rfl⟩
  · rw [if_neg (by simpa using h1)]
    by_cases h2 : c.strict = true ∧ (passes c fields d).remaining.isEmpty = false
    · rw [if_pos (by simp [h2.1, h2.2])]
      exact Or.inl ⟨Or.inr h2, rfl⟩
    · rw [if_neg (by simpa using h2)]
      exact Or.inr ⟨fun hx => hx.elim h1 h2, _, rfl, finish_output c sim hc fields d hd h⟩

/-- Everything C60 says, with one correspondence: if fuzzy matching is on it is maximal (no similar pair is left over, unless an expected key is the empty
string), if off it is empty; a failure is ValueError and happens exactly in the two cases; otherwise the result is the output that belongs to it. -/
theorem C60_exact (c : Cfg κ ν) (sim : κ → κ → Bool) (hc : Lawful c sim) (fields : List κ) (hf : fields.Nodup) (hne : fields ≠ [])
    (d : Dict κ ν) (hd : d.WF) :
    ∃ ps, Matching sim fields d ps ∧ (c.fuzzy = false → ps = []) ∧
      (c.fuzzy = true → (∀ k ∈ fields, c.falsy k = false) → ∀ k m, LeftIn fields d ps k → LeftExp fields d ps m → sim k m = false) ∧
      ((((c.mode = .raise ∧ ∃ k, LeftIn fields d ps k) ∨ (c.strict = true ∧ ∃ k, LeftExp fields d ps k)) ∧ fuzzyMatchKeys c fields d = .error .valueError) ∨
       (¬ ((c.mode = .raise ∧ ∃ k, LeftIn fields d ps k) ∨ (c.strict = true ∧ ∃ k, LeftExp fields d ps k)) ∧
         ∃ out, fuzzyMatchKeys c fields d = .ok out ∧ Output c.mode c.fillFor fields d ps out)) := by
  by_cases hz : c.fuzzy = true
  · obtain ⟨todo, ps, h⟩ := inv_passes c sim hc fields hf d hd
    refine ⟨ps, h.m, fun e => (by rw [hz] at e; cases e), ?_, ?_⟩
    · intro _ hfal k m hk hm
      refine C60_no_match_left c sim hc fields hf d hd hz hfal k hk.1 hk.2.1 ?_ m ((h.rem m).2 hm)
      intro hmat
      rcases (h.mat k).1 hmat with ⟨_, b⟩ | b
      · exact hk.2.1 b
      · exact hk.2.2 b
    · exact exact_outcome c sim hc fields hne d hd h
  · have hz' : c.fuzzy = false := by simpa using hz
    have h := inv_init c sim hc fields hf d hd
    have hp : passes c fields d = exactPass fields d := by unfold passes; rw [if_neg hz]
    refine ⟨[], h.m, fun _ => rfl, fun e => (by rw [hz'] at e; cases e), ?_⟩
    exact exact_outcome c sim hc fields hne d hd (hp ▸ h)

/-- A configuration for the examples: keys are numbers, similar if they differ by one; sets are iterated backwards. -/
def demoSim (k m : Nat) : Bool := decide (k = m + 1) || decide (m = k + 1)

def demoCfg (mode : Mode) (strict : Bool) : Cfg Nat Nat :=
  { best := fun k l => l.find? (demoSim k), falsy := fun _ => false, fuzzy := true, mode := mode, strict := strict,
    fillFor := fun k => 1000 + k, ord := fun _ l => l.reverse }

example (mode : Mode) (strict : Bool) : Lawful (demoCfg mode strict) demoSim where
  some := fun k l m h => ⟨List.mem_of_find?_eq_some h, List.find?_some h⟩
  none := fun k l h m hm => by simpa using List.find?_eq_none.1 h m hm
  perm := fun _ l => List.reverse_perm l

example : fuzzyMatchKeys (demoCfg .ignore false) [10, 20, 30] [(20, 1), (11, 2), (50, 3)] = .ok [(20, 1), (50, 3), (10, 2)] := by decide
example : fuzzyMatchKeys (demoCfg .force false) [10, 20, 30] [(20, 1), (11, 2), (50, 3)] = .ok [(20, 1), (10, 2), (30, 1030)] := by decide
example : fuzzyMatchKeys (demoCfg .remove false) [10, 20, 30] [(20, 1), (11, 2), (50, 3)] = .ok [(20, 1), (10, 2)] := by decide
example : fuzzyMatchKeys (demoCfg .raise false) [10, 20, 30] [(20, 1), (11, 2), (50, 3)] = .error .valueError := by decide
example : fuzzyMatchKeys (demoCfg .ignore true) [10, 20, 30] [(20, 1), (11, 2), (50, 3)] = .error .valueError := by decide

/-! ## C119 -/

/-- Modes that keep unexpected keys: with no expected keys the result is the input.  The full claim covers every mode. -/
theorem C119_keep_partial (c : Cfg κ ν) (d : Dict κ ν) (h : c.mode = .ignore ∨ c.mode = .fill) :
    ∃ out, fuzzyMatchKeys c [] d = .ok out ∧ Output c.mode c.fillFor [] d [] out :=
  ⟨d, rfl, by
    refine ⟨by simp, by simp, ?_, ?_, by simp, ?_⟩
    · intro k hk; exact absurd hk.1 (by simp)
    · intro k hk; rw [if_pos h]
    · intro k _ hk; exact (Dict.get?_eq_none_iff _ _).2 hk⟩

/-- With no expected keys, raise mode accepts, and remove mode keeps, a key that is not expected. -/
theorem C119_no_keys_violation :
    fuzzyMatchKeys (demoCfg .raise false) [] [(50, 3)] = .ok [(50, 3)] ∧
    fuzzyMatchKeys (demoCfg .remove false) [] [(50, 3)] = .ok [(50, 3)] := by decide

end Verif.KeyMatch
