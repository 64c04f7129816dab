import Verif.Model.Similarity
import Verif.Py.ListLemmas

/-!
# String similarity: C67, C68, C69, C106
-/

set_option linter.unusedSectionVars false
set_option linter.unusedSimpArgs false
set_option linter.unusedVariables false

namespace Verif.Sim

variable {α : Type} [DecidableEq α]

/-! ### C67: specification of edit distance -/

/-- `Edits a b n`: `a` can be turned into `b` by `n` single-character insertions, deletions and substitutions. -/
inductive Edits : List α → List α → Nat → Prop where
  | nil : Edits [] [] 0
  | keep (x : α) (a b : List α) (n : Nat) : Edits a b n → Edits (x :: a) (x :: b) n
  | subst (x y : α) (a b : List α) (n : Nat) : Edits a b n → Edits (x :: a) (y :: b) (n + 1)
  | delete (x : α) (a b : List α) (n : Nat) : Edits a b n → Edits (x :: a) b (n + 1)
  | insert (y : α) (a b : List α) (n : Nat) : Edits a b n → Edits a (y :: b) (n + 1)

theorem Edits.append {a b : List α} {n : Nat} (h : Edits a b n) {c d : List α} {m : Nat} (h' : Edits c d m) : Edits (a ++ c) (b ++ d) (n + m) := by
  induction h with
  | nil => simpa using h'
  | keep x a b n _ ih => exact Edits.keep x _ _ _ ih
  | subst x y a b n _ ih => have := Edits.subst x y _ _ _ ih; simp only [List.cons_append]; rw [show n + 1 + m = n + m + 1 by omega]; exact this
  | delete x a b n _ ih => have := Edits.delete x _ _ _ ih; simp only [List.cons_append]; rw [show n + 1 + m = n + m + 1 by omega]; exact this
  | insert y a b n _ ih => have := Edits.insert y _ _ _ ih; simp only [List.cons_append]; rw [show n + 1 + m = n + m + 1 by omega]; exact this

theorem Edits.reverse {a b : List α} {n : Nat} (h : Edits a b n) : Edits a.reverse b.reverse n := by
  induction h with
  | nil => exact Edits.nil
  | keep x a b n _ ih => simpa using ih.append (Edits.keep x [] [] 0 Edits.nil)
  | subst x y a b n _ ih => simpa using ih.append (Edits.subst x y [] [] 0 Edits.nil)
  | delete x a b n _ ih => simpa using ih.append (Edits.delete x [] [] 0 Edits.nil)
  | insert y a b n _ ih => simpa using ih.append (Edits.insert y [] [] 0 Edits.nil)

/-- Recursive edit distance. -/
def lev : List α → List α → Nat
  | [], b => b.length
  | a, [] => a.length
  | x :: a, y :: b => min (min (lev a (y :: b) + 1) (lev (x :: a) b + 1)) (lev a b + if x = y then 0 else 1)
termination_by a b => a.length + b.length

theorem lev_nil_left (b : List α) : lev [] b = b.length := by unfold lev; rfl

theorem lev_nil_right (a : List α) : lev a [] = a.length := by
  cases a with
  | nil => unfold lev; rfl
  | cons => unfold lev; rfl

theorem lev_cons (x y : α) (a b : List α) :
    lev (x :: a) (y :: b) = min (min (lev a (y :: b) + 1) (lev (x :: a) b + 1)) (lev a b + if x = y then 0 else 1) := by
  rw [lev]

theorem edits_insert_all (b : List α) : Edits [] b b.length := by
  induction b with
  | nil => exact Edits.nil
  | cons y b ih => exact Edits.insert y _ _ _ ih

theorem edits_delete_all (a : List α) : Edits a [] a.length := by
  induction a with
  | nil => exact Edits.nil
  | cons y b ih => exact Edits.delete y _ _ _ ih

theorem lev_edits (a b : List α) : Edits a b (lev a b) := by
  have key : ∀ k, ∀ a b : List α, a.length + b.length ≤ k → Edits a b (lev a b) := by
    intro k
    induction k with
    | zero =>
      intro a b h
      have ha : a = [] := List.length_eq_zero_iff.1 (by omega)
      have hb : b = [] := List.length_eq_zero_iff.1 (by omega)
      subst ha; subst hb; rw [lev_nil_left]; exact Edits.nil
    | succ k ih =>
      intro a b h
      cases a with
      | nil => rw [lev_nil_left]; exact edits_insert_all b
      | cons x a =>
        cases b with
        | nil => rw [lev_nil_right]; exact edits_delete_all _
        | cons y b =>
          simp only [List.length_cons] at h
          have h1 := ih a (y :: b) (by simp only [List.length_cons]; omega)
          have h2 := ih (x :: a) b (by simp only [List.length_cons]; omega)
          have h3 := ih a b (by omega)
          have e1 := Edits.delete x _ _ _ h1
          have e2 := Edits.insert y _ _ _ h2
          have e3 : Edits (x :: a) (y :: b) (lev a b + if x = y then 0 else 1) := by
            by_cases hxy : x = y
            · subst hxy; rw [if_pos rfl]; exact Edits.keep x _ _ _ h3
            · rw [if_neg hxy]; exact Edits.subst x y _ _ _ h3
          rw [lev_cons]
          rcases Nat.le_total (min (lev a (y :: b) + 1) (lev (x :: a) b + 1)) (lev a b + if x = y then 0 else 1) with hle | hle
          · rw [Nat.min_eq_left hle]
            rcases Nat.le_total (lev a (y :: b) + 1) (lev (x :: a) b + 1) with hle' | hle'
            · rw [Nat.min_eq_left hle']; exact e1
            · rw [Nat.min_eq_right hle']; exact e2
          · rw [Nat.min_eq_right hle]; exact e3
  exact key _ a b (Nat.le_refl _)

theorem lev_step (x : α) (a b : List α) : lev (x :: a) b ≤ lev a b + 1 := by
  cases b with
  | nil => rw [lev_nil_right, lev_nil_right]; simp
  | cons y b => rw [lev_cons]; omega

theorem lev_step' (y : α) (a b : List α) : lev a (y :: b) ≤ lev a b + 1 := by
  cases a with
  | nil => rw [lev_nil_left, lev_nil_left]; simp
  | cons x a => rw [lev_cons]; omega

theorem lev_le {a b : List α} {n : Nat} (h : Edits a b n) : lev a b ≤ n := by
  induction h with
  | nil => rw [lev_nil_left]; simp
  | keep x a b n _ ih => rw [lev_cons, if_pos rfl]; omega
  | subst x y a b n _ ih => rw [lev_cons]; split <;> omega
  | delete x a b n _ ih => have := lev_step x a b; omega
  | insert y a b n _ ih => have := lev_step' y a b; omega

/-! The table rows -/

/-- Row of the table: distances of `ra` to the prefixes of `b` (all reversed), the first prefix being `rb`. -/
def specRow (ra : List α) : List α → List α → List Nat
  | rb, [] => [lev ra rb]
  | rb, y :: ys => lev ra rb :: specRow ra (y :: rb) ys

theorem specRow_head (ra rb b : List α) : ∃ t, specRow ra rb b = lev ra rb :: t := by
  cases b with
  | nil => exact ⟨[], rfl⟩
  | cons y ys => exact ⟨_, rfl⟩

theorem rowGo_spec (x : α) (ra : List α) (rb ys : List α) :
    lev (x :: ra) rb :: rowGo x ys (specRow ra rb ys) (lev (x :: ra) rb) = specRow (x :: ra) rb ys := by
  induction ys generalizing rb with
  | nil => rfl
  | cons y ys ih =>
    obtain ⟨t, ht⟩ := specRow_head ra (y :: rb) ys
    rw [specRow, specRow, ht, rowGo, ← lev_cons, ← ht, ih]

theorem specRow_nil (b : List α) (rb : List α) : specRow [] rb b = List.range' rb.length (b.length + 1) := by
  induction b generalizing rb with
  | nil => simp [specRow, lev_nil_left]
  | cons y b ih => rw [specRow, ih, lev_nil_left]; simp [List.range'_succ]

theorem rows_spec (b : List α) (a ra : List α) : rows b a (ra.length + 1) (specRow ra [] b) = specRow (a.reverse ++ ra) [] b := by
  induction a generalizing ra with
  | nil => rfl
  | cons x a ih =>
    have hr : nextRow b (specRow ra [] b) (ra.length + 1) x = specRow (x :: ra) [] b := by
      rw [nextRow, ← rowGo_spec x ra [] b, lev_nil_right]; rfl
    have := ih (x :: ra)
    rw [rows, hr]
    rw [List.length_cons] at this
    rw [this]; simp

theorem specRow_last (ra : List α) (b rb : List α) : (specRow ra rb b).getLastD 0 = lev ra (b.reverse ++ rb) := by
  induction b generalizing rb with
  | nil => rfl
  | cons y b ih =>
    have := ih (y :: rb)
    obtain ⟨t, ht⟩ := specRow_head ra (y :: rb) b
    rw [ht] at this
    rw [specRow, ht]
    simp only [List.getLastD_cons] at *
    rw [this]; simp

theorem levenshtein_eq (a b : List α) : levenshtein a b = lev a.reverse b.reverse := by
  unfold levenshtein
  split
  · next h => subst h; simp [lev_nil_left]
  · split
    · next h => subst h; simp [lev_nil_right]
    · have h0 : List.range (b.length + 1) = specRow [] [] b := by
        rw [specRow_nil, List.range_eq_range']; rfl
      have := rows_spec b a []
      simp only [List.length_nil, Nat.zero_add] at this
      rw [h0, this, specRow_last]; simp

/-- C67: the distance is the minimal number of edits: it is attained, and no edit script is shorter. -/
theorem C67_minimal (a b : List α) : Edits a b (levenshtein a b) ∧ ∀ n, Edits a b n → levenshtein a b ≤ n := by
  rw [levenshtein_eq]
  refine ⟨?_, ?_⟩
  · have := (lev_edits a.reverse b.reverse).reverse
    simpa using this
  · intro n h
    exact lev_le h.reverse

theorem Edits.symm {a b : List α} {n : Nat} (h : Edits a b n) : Edits b a n := by
  induction h with
  | nil => exact Edits.nil
  | keep x a b n _ ih => exact Edits.keep x _ _ _ ih
  | subst x y a b n _ ih => exact Edits.subst y x _ _ _ ih
  | delete x a b n _ ih => exact Edits.insert x _ _ _ ih
  | insert y a b n _ ih => exact Edits.delete y _ _ _ ih

theorem Edits.refl (a : List α) : Edits a a 0 := by
  induction a with
  | nil => exact Edits.nil
  | cons x a ih => exact Edits.keep x _ _ _ ih

theorem Edits.eq_of_zero {a b : List α} {n : Nat} (h : Edits a b n) (hn : n = 0) : a = b := by
  induction h with
  | nil => rfl
  | keep x a b n _ ih => rw [ih hn]
  | subst => omega
  | delete => omega
  | insert => omega

theorem Edits.trans {a b c : List α} {n m : Nat} (h : Edits a b n) (h' : Edits b c m) : ∃ k, k ≤ n + m ∧ Edits a c k := by
  induction h generalizing c m with
  | nil => exact ⟨m, by omega, h'⟩
  | delete x a b n _ ih =>
    obtain ⟨k, hk, e⟩ := ih h'
    exact ⟨k + 1, by omega, Edits.delete x _ _ _ e⟩
  | keep x a b n hab ih =>
    have key : ∀ (l c : List α) (m : Nat), Edits l c m → l = x :: b → ∃ k, k ≤ n + m ∧ Edits (x :: a) c k := by
      intro l c m hl
      induction hl with
      | nil => intro e; cases e
      | keep z b' c m hbc _ =>
        intro e; cases e
        obtain ⟨k, hk, e⟩ := ih hbc
        exact ⟨k, hk, Edits.keep x _ _ _ e⟩
      | subst z w b' c m hbc _ =>
        intro e; cases e
        obtain ⟨k, hk, e⟩ := ih hbc
        exact ⟨k + 1, by omega, Edits.subst x w _ _ _ e⟩
      | delete z b' c m hbc _ =>
        intro e; cases e
        obtain ⟨k, hk, e⟩ := ih hbc
        exact ⟨k + 1, by omega, Edits.delete x _ _ _ e⟩
      | insert w b' c m hbc ih2 =>
        intro e
        obtain ⟨k, hk, e⟩ := ih2 e
        exact ⟨k + 1, by omega, Edits.insert w _ _ _ e⟩
    exact key _ _ _ h' rfl
  | subst x y a b n hab ih =>
    have key : ∀ (l c : List α) (m : Nat), Edits l c m → l = y :: b → ∃ k, k ≤ n + 1 + m ∧ Edits (x :: a) c k := by
      intro l c m hl
      induction hl with
      | nil => intro e; cases e
      | keep z b' c m hbc _ =>
        intro e; cases e
        obtain ⟨k, hk, e⟩ := ih hbc
        exact ⟨k + 1, by omega, Edits.subst x y _ _ _ e⟩
      | subst z w b' c m hbc _ =>
        intro e; cases e
        obtain ⟨k, hk, e⟩ := ih hbc
        exact ⟨k + 1, by omega, Edits.subst x w _ _ _ e⟩
      | delete z b' c m hbc _ =>
        intro e; cases e
        obtain ⟨k, hk, e⟩ := ih hbc
        exact ⟨k + 1, by omega, Edits.delete x _ _ _ e⟩
      | insert w b' c m hbc ih2 =>
        intro e
        obtain ⟨k, hk, e⟩ := ih2 e
        exact ⟨k + 1, by omega, Edits.insert w _ _ _ e⟩
    exact key _ _ _ h' rfl
  | insert y a b n hab ih =>
    have key : ∀ (l c : List α) (m : Nat), Edits l c m → l = y :: b → ∃ k, k ≤ n + 1 + m ∧ Edits a c k := by
      intro l c m hl
      induction hl with
      | nil => intro e; cases e
      | keep z b' c m hbc _ =>
        intro e; cases e
        obtain ⟨k, hk, e⟩ := ih hbc
        exact ⟨k + 1, by omega, Edits.insert y _ _ _ e⟩
      | subst z w b' c m hbc _ =>
        intro e; cases e
        obtain ⟨k, hk, e⟩ := ih hbc
        exact ⟨k + 1, by omega, Edits.insert w _ _ _ e⟩
      | delete z b' c m hbc _ =>
        intro e; cases e
        obtain ⟨k, hk, e⟩ := ih hbc
        exact ⟨k, by omega, e⟩
      | insert w b' c m hbc ih2 =>
        intro e
        obtain ⟨k, hk, e⟩ := ih2 e
        exact ⟨k + 1, by omega, Edits.insert w _ _ _ e⟩
    exact key _ _ _ h' rfl

/-- C67: it is a metric. -/
theorem C67_metric (a b c : List α) :
    (levenshtein a b = 0 ↔ a = b) ∧ levenshtein a b = levenshtein b a ∧ levenshtein a c ≤ levenshtein a b + levenshtein b c := by
  refine ⟨⟨fun h => (C67_minimal a b).1.eq_of_zero h, fun h => ?_⟩, ?_, ?_⟩
  · subst h
    have := (C67_minimal a a).2 0 (Edits.refl a); omega
  · have h1 := (C67_minimal a b).2 _ (C67_minimal b a).1.symm
    have h2 := (C67_minimal b a).2 _ (C67_minimal a b).1.symm
    omega
  · obtain ⟨k, hk, e⟩ := (C67_minimal a b).1.trans (C67_minimal b c).1
    have := (C67_minimal a c).2 k e; omega

example : levenshtein "kitten".toList "sitting".toList = 3 := by decide

/-! ### C68: bounds -/

theorem ratio_bounds (m n : Nat) (h : m ≤ n) (hn : 0 < n) : 0 ≤ (m : Rat) / (n : Rat) ∧ (m : Rat) / (n : Rat) ≤ 1 := by
  have hn' : (0 : Rat) < (n : Rat) := by exact_mod_cast hn
  have hm : (0 : Rat) ≤ (m : Rat) := by exact_mod_cast Nat.zero_le m
  have hmn : (m : Rat) ≤ (n : Rat) := by exact_mod_cast h
  refine ⟨?_, ?_⟩
  · rw [← Rat.not_lt, Rat.div_lt_iff hn']
    grind
  · rw [← Rat.not_lt, Rat.lt_div_iff hn']
    grind

theorem ratio_one (n : Nat) (hn : 0 < n) : (n : Rat) / (n : Rat) = 1 := by
  have hn' : (n : Rat) ≠ 0 := by
    have : (0 : Rat) < (n : Rat) := by exact_mod_cast hn
    grind
  have := Rat.mul_div_cancel (a := 1) hn'
  rw [Rat.one_mul] at this
  exact this

theorem lev_le_max (a b : List α) : levenshtein a b ≤ max a.length b.length := by
  have key : ∀ a b : List α, ∃ n, n ≤ max a.length b.length ∧ Edits a b n := by
    intro a
    induction a with
    | nil => intro b; exact ⟨b.length, by simp, edits_insert_all b⟩
    | cons x a ih =>
      intro b
      cases b with
      | nil => exact ⟨(x :: a).length, by simp, edits_delete_all _⟩
      | cons y b =>
        obtain ⟨n, h1, h2⟩ := ih b
        exact ⟨n + 1, by simp only [List.length_cons]; omega, Edits.subst x y _ _ _ h2⟩
  obtain ⟨n, h1, h2⟩ := key a b
  have := (C67_minimal a b).2 n h2
  omega

/-- C68 for Levenshtein. -/
theorem C68_levenshtein (s t : List α) : (0 ≤ levSim s t ∧ levSim s t ≤ 1) ∧ levSim s s = 1 := by
  refine ⟨?_, ?_⟩
  · unfold levSim
    split
    · exact ⟨by decide, by decide⟩
    · split
      · exact ⟨by decide, by decide⟩
      · next h1 h2 =>
        have hs : s ≠ [] := fun h => h2 (Or.inl h)
        have hpos : 0 < max s.length t.length := by
          have := List.length_pos_iff.2 hs; omega
        have := ratio_bounds _ _ (lev_le_max s t) hpos
        grind
  · unfold levSim
    split
    · rfl
    · next h =>
      have hs : s ≠ [] := fun e => h ⟨e, e⟩
      rw [if_neg (by simp [hs])]
      have h0 : levenshtein s s = 0 := ((C67_metric s s s).1).2 rfl
      rw [h0]
      have := ratio_bounds 0 (max s.length s.length) (by omega) (by have := List.length_pos_iff.2 hs; omega)
      have hz : ((0 : Nat) : Rat) / ((max s.length s.length : Nat) : Rat) = 0 := by
        rw [Rat.div_def]; simp
      rw [hz]; grind

/-- C68 for Hamming. -/
theorem C68_hamming (s t : List α) : (0 ≤ hammingSim s t ∧ hammingSim s t ≤ 1) ∧ (s ≠ [] → hammingSim s s = 1) := by
  refine ⟨?_, ?_⟩
  · unfold hammingSim
    split
    · exact ⟨by decide, by decide⟩
    · next h =>
      have hs : s ≠ [] := fun e => h (Or.inl e)
      apply ratio_bounds _ _ _ (List.length_pos_iff.2 hs)
      have h1 := List.countP_le_length (p := fun p : α × α => decide (p.1 = p.2)) (l := s.zip t)
      have h2 : (s.zip t).length ≤ s.length := by rw [List.length_zip]; omega
      omega
  · intro hs
    unfold hammingSim
    rw [if_neg (by simp [hs])]
    have hc : (s.zip s).countP (fun p => decide (p.1 = p.2)) = s.length := by
      have : ∀ l : List α, (l.zip l).countP (fun p => decide (p.1 = p.2)) = l.length := by
        intro l
        induction l with
        | nil => rfl
        | cons x l ih => simp [List.zip_cons_cons, ih]
      exact this s
    rw [hc]
    exact ratio_one _ (List.length_pos_iff.2 hs)

/-! Cosine -/

theorem nodup_eraseDups (l : List α) : l.eraseDups.Nodup := by
  have key : ∀ k, ∀ l : List α, l.length ≤ k → l.eraseDups.Nodup := by
    intro k
    induction k with
    | zero => intro l h; cases l with | nil => simp | cons x l => simp at h
    | succ k ih =>
      intro l h
      cases l with
      | nil => simp
      | cons x l =>
        rw [List.eraseDups_cons, List.nodup_cons]
        refine ⟨?_, ih _ ?_⟩
        · rw [List.mem_eraseDups, List.mem_filter]; simp
        · have := List.length_filter_le (fun b => !b == x) l
          simp only [List.length_cons] at h
          omega
  exact key _ l (Nat.le_refl _)

theorem countP_mem_le (s t : List α) : s.eraseDups.countP (fun c => decide (c ∈ t)) ≤ t.eraseDups.length := by
  rw [List.countP_eq_length_filter]
  apply length_le_of_nodup_subset
  · exact (nodup_eraseDups s).sublist List.filter_sublist
  · intro x hx
    rw [List.mem_filter] at hx
    rw [List.mem_eraseDups]
    simpa using hx.2

/-- C68 for cosine (in terms of the square of the similarity). -/
theorem C68_cosine (s t : List α) : (0 ≤ cosineSq s t ∧ cosineSq s t ≤ 1) ∧ (s ≠ [] → cosineSq s s = 1) := by
  refine ⟨?_, ?_⟩
  · unfold cosineSq
    split
    · exact ⟨by decide, by decide⟩
    · next h =>
      have hs : s ≠ [] := fun e => h (Or.inl e)
      have ht : t ≠ [] := fun e => h (Or.inr e)
      have hs' : 0 < s.eraseDups.length := by
        cases s with
        | nil => exact absurd rfl hs
        | cons x s => exact List.length_pos_of_mem (a := x) (by rw [List.mem_eraseDups]; simp)
      have ht' : 0 < t.eraseDups.length := by
        cases t with
        | nil => exact absurd rfl ht
        | cons x s => exact List.length_pos_of_mem (a := x) (by rw [List.mem_eraseDups]; simp)
      have h1 := countP_mem_le s t
      have h2 : s.eraseDups.countP (fun c => decide (c ∈ t)) ≤ s.eraseDups.length := List.countP_le_length
      have h3 := Nat.mul_le_mul h2 h1
      have := ratio_bounds _ _ h3 (Nat.mul_pos hs' ht')
      simp only [Rat.natCast_mul] at this
      exact this
  · intro hs
    have hs' : 0 < s.eraseDups.length := by
      cases s with
      | nil => exact absurd rfl hs
      | cons x s => exact List.length_pos_of_mem (a := x) (by rw [List.mem_eraseDups]; simp)
    unfold cosineSq
    rw [if_neg (by simp [hs])]
    have hc : s.eraseDups.countP (fun c => decide (c ∈ s)) = s.eraseDups.length := by
      rw [List.countP_eq_length]
      intro x hx
      rw [List.mem_eraseDups] at hx
      simpa using hx
    rw [hc, ← Rat.natCast_mul]
    exact ratio_one _ (Nat.mul_pos hs' hs')

/-! Jaro -/

/-- Both flag lists have the same number of matches. -/
theorem matchFlags_inv (md : Nat) (t : List α) (s : List α) (st : List Bool × List Bool) (h1 : st.1.count true = st.2.count true) (h2 : st.2.length = t.length) :
    (s.foldl (matchStep md t) st).1.count true = (s.foldl (matchStep md t) st).2.count true ∧
      (s.foldl (matchStep md t) st).1.length = st.1.length + s.length ∧ (s.foldl (matchStep md t) st).2.length = t.length := by
  induction s generalizing st with
  | nil => exact ⟨h1, by simp, h2⟩
  | cons c s ih =>
    rw [List.foldl_cons]
    have hstep : (matchStep md t st c).1.count true = (matchStep md t st c).2.count true ∧ (matchStep md t st c).1.length = st.1.length + 1 ∧
        (matchStep md t st c).2.length = t.length := by
      unfold matchStep
      cases hf : findMatch md t st.2 st.1.length c with
      | none => simp [h1, h2]
      | some j =>
        have hfree : free t st.2 c j = true := List.find?_some hf
        simp only [free, decide_eq_true_eq] at hfree
        obtain ⟨hj, hv⟩ := List.getElem?_eq_some_iff.1 hfree.1
        have hset := List.count_set (a := true) (b := true) hj
        simp only [hv] at hset
        refine ⟨?_, by simp, by simp [h2]⟩
        simp only [List.count_append, List.count_singleton, hset, h1]
        simp
    obtain ⟨a1, a2, a3⟩ := ih (matchStep md t st c) hstep.1 hstep.2.2
    exact ⟨a1, by rw [a2, hstep.2.1, List.length_cons]; omega, a3⟩

theorem nMatches_le (s t : List α) : nMatches s t ≤ s.length ∧ nMatches s t ≤ t.length := by
  have := matchFlags_inv (matchDist s t) t s ([], List.replicate t.length false) (by simp [List.count_replicate]) (by simp)
  unfold nMatches matchFlags
  obtain ⟨h1, h2, h3⟩ := this
  have l1 := List.count_le_length (a := true) (l := (s.foldl (matchStep (matchDist s t) t) ([], List.replicate t.length false)).1)
  have l2 := List.count_le_length (a := true) (l := (s.foldl (matchStep (matchDist s t) t) ([], List.replicate t.length false)).2)
  rw [h2] at l1
  rw [h3] at l2
  simp only [List.length_nil, Nat.zero_add] at l1
  exact ⟨l1, by rw [h1]; exact l2⟩

theorem matched_length (l : List α) (f : List Bool) (h : f.length = l.length) : (matched l f).length = f.count true := by
  unfold matched
  rw [List.length_map]
  induction l generalizing f with
  | nil =>
    have : f = [] := List.length_eq_zero_iff.1 (by simpa using h)
    subst this; simp
  | cons x l ih =>
    cases f with
    | nil => simp at h
    | cons b f =>
      have := ih f (by simpa using h)
      cases b <;> simp [List.zip_cons_cons, this]

theorem nTrans_le (s t : List α) : nTrans s t ≤ nMatches s t := by
  have := matchFlags_inv (matchDist s t) t s ([], List.replicate t.length false) (by simp [List.count_replicate]) (by simp)
  have hl := matched_length s (matchFlags s t).1 (by unfold matchFlags; rw [this.2.1]; simp)
  unfold nTrans nMatches
  have h1 := List.countP_le_length (p := fun p : α × α => decide (p.1 ≠ p.2)) (l := (matched s (matchFlags s t).1).zip (matched t (matchFlags s t).2))
  rw [List.length_zip] at h1
  omega

theorem jaro_bounds (s t : List α) : 0 ≤ jaro s t ∧ jaro s t ≤ 1 := by
  unfold jaro
  split
  · exact ⟨by decide, by decide⟩
  · split
    · exact ⟨by decide, by decide⟩
    · split
      · exact ⟨by decide, by decide⟩
      · next h1 h2 h3 =>
        have hs : s ≠ [] := fun e => h2 (Or.inl e)
        have ht : t ≠ [] := fun e => h2 (Or.inr e)
        obtain ⟨l1, l2⟩ := nMatches_le s t
        have l3 := nTrans_le s t
        have b1 := ratio_bounds _ _ l1 (List.length_pos_iff.2 hs)
        have b2 := ratio_bounds _ _ l2 (List.length_pos_iff.2 ht)
        have b3 := ratio_bounds (nMatches s t - nTrans s t / 2) (nMatches s t) (by omega) (by omega)
        have hsub : ((nMatches s t - nTrans s t / 2 : Nat) : Rat) = (nMatches s t : Rat) - (nTrans s t / 2 : Nat) := by
          have hle : nTrans s t / 2 ≤ nMatches s t := by omega
          have : (((nMatches s t - nTrans s t / 2) + nTrans s t / 2 : Nat) : Rat) = (nMatches s t : Nat) := by
            rw [Nat.sub_add_cancel hle]
          rw [Rat.natCast_add] at this
          grind
        rw [hsub] at b3
        grind

/-- Matching a string with itself: position `i` is matched with position `i`. -/
theorem matchFlags_self (t s pre : List α) (md : Nat) (ht : t = pre ++ s) :
    s.foldl (matchStep md t) (List.replicate pre.length true, List.replicate pre.length true ++ List.replicate s.length false) =
      (List.replicate t.length true, List.replicate t.length true) := by
  induction s generalizing pre with
  | nil =>
    subst ht; simp
  | cons c s ih =>
    rw [List.foldl_cons]
    have hstep : matchStep md t (List.replicate pre.length true, List.replicate pre.length true ++ List.replicate (c :: s).length false) c =
        (List.replicate (pre ++ [c]).length true, List.replicate (pre ++ [c]).length true ++ List.replicate s.length false) := by
      unfold matchStep
      have hf : findMatch md t (List.replicate pre.length true ++ List.replicate (c :: s).length false) (List.replicate pre.length true).length c = some pre.length := by
        unfold findMatch
        rw [List.length_replicate]
        have hlt : pre.length < min (pre.length + md + 1) t.length := by
          have : t.length = pre.length + s.length + 1 := by rw [ht]; simp; omega
          omega
        have hsplit : List.range' (pre.length - md) (min (pre.length + md + 1) t.length - (pre.length - md)) =
            List.range' (pre.length - md) (pre.length - (pre.length - md)) ++ List.range' pre.length (min (pre.length + md + 1) t.length - pre.length) := by
          have h1 : pre.length - md + (pre.length - (pre.length - md)) = pre.length := by omega
          have h2 : min (pre.length + md + 1) t.length - (pre.length - md) =
              (pre.length - (pre.length - md)) + (min (pre.length + md + 1) t.length - pre.length) := by omega
          rw [h2, ← List.range'_append_1, h1]
        rw [hsplit, List.find?_append]
        have hnone : (List.range' (pre.length - md) (pre.length - (pre.length - md))).find? (free t (List.replicate pre.length true ++ List.replicate (c :: s).length false) c) = none := by
          rw [List.find?_eq_none]
          intro j hj
          rw [List.mem_range'_1] at hj
          have hjlt : j < pre.length := by omega
          simp [free, List.getElem?_append_left, hjlt, List.length_replicate]
        rw [hnone]
        obtain ⟨k, hk⟩ : ∃ k, min (pre.length + md + 1) t.length - pre.length = k + 1 := ⟨_, (Nat.succ_pred_eq_of_pos (by omega)).symm⟩
        rw [hk, List.range'_succ, List.find?_cons]
        have : free t (List.replicate pre.length true ++ List.replicate (c :: s).length false) c pre.length = true := by
          simp [free, ht]
        rw [this]; rfl
      rw [hf]
      show (_, List.set _ _ _) = _
      rw [List.set_append_right _ _ (by simp)]
      simp only [List.length_append, List.length_cons, List.length_nil, Nat.zero_add, Prod.mk.injEq, List.length_replicate, Nat.sub_self]
      rw [List.replicate_succ' (n := pre.length)]
      refine ⟨rfl, ?_⟩
      rw [List.replicate_succ (n := s.length), List.set_cons_zero]
      simp
    rw [hstep]
    exact ih (pre ++ [c]) (by rw [ht]; simp)

theorem zip_self_filter (l : List α) : matched l (List.replicate l.length true) = l := by
  unfold matched
  induction l with
  | nil => rfl
  | cons x l ih => rw [List.length_cons, List.replicate_succ, List.zip_cons_cons]; simp [ih]

theorem jaro_self (s : List α) : jaro s s = 1 := by
  unfold jaro
  split
  · rfl
  · next h =>
    have hs : s ≠ [] := fun e => h ⟨e, e⟩
    have hpos := List.length_pos_iff.2 hs
    have hf : matchFlags s s = (List.replicate s.length true, List.replicate s.length true) := by
      have := matchFlags_self s s [] (matchDist s s) rfl
      simpa [matchFlags] using this
    have hm : nMatches s s = s.length := by unfold nMatches; rw [hf]; simp
    have ht : nTrans s s = 0 := by
      unfold nTrans
      rw [hf]
      simp only [zip_self_filter]
      rw [List.countP_eq_zero]
      intro p hp
      obtain ⟨i, hi, hp'⟩ := List.mem_iff_getElem.1 hp
      rw [List.getElem_zip] at hp'
      rw [← hp']; simp
    rw [if_neg (by simp [hs]), if_neg (by omega), hm, ht]
    have := ratio_one _ hpos
    have h2 : (s.length : Rat) - ((0 / 2 : Nat) : Rat) = (s.length : Rat) := by
      simp; grind
    rw [h2, this]
    grind

/-- C68 for Jaro. -/
theorem C68_jaro (s t : List α) : (0 ≤ jaro s t ∧ jaro s t ≤ 1) ∧ jaro s s = 1 := ⟨jaro_bounds s t, jaro_self s⟩

theorem prefixLen_le (s t : List α) : prefixLen s t ≤ 4 := by
  unfold prefixLen
  have h1 := (List.takeWhile_sublist (fun p : α × α => decide (p.1 = p.2)) (l := (s.zip t).take 4)).length_le
  rw [List.length_take] at h1
  omega

/-- C68 for Jaro-Winkler, every admissible scaling; other scalings are rejected. -/
theorem C68_jaro_winkler (scaling : Rat) (s t : List α) :
    ((0 ≤ scaling ∧ scaling ≤ 1 / 4) → ∃ v, jaroWinkler scaling s t = some v ∧ 0 ≤ v ∧ v ≤ 1 ∧ jaroWinkler scaling s s = some 1) ∧
    (¬ (0 ≤ scaling ∧ scaling ≤ 1 / 4) → jaroWinkler scaling s t = none) := by
  refine ⟨fun h => ?_, fun h => by unfold jaroWinkler; rw [if_neg h]⟩
  unfold jaroWinkler
  rw [if_pos h, if_pos h]
  refine ⟨_, rfl, ?_, ?_, ?_⟩
  · obtain ⟨h1, h2⟩ := jaro_bounds s t
    have hp : (0 : Rat) ≤ (prefixLen s t : Rat) := by exact_mod_cast Nat.zero_le _
    have := Rat.mul_nonneg (Rat.mul_nonneg hp h.1) (show (0 : Rat) ≤ 1 - jaro s t by grind)
    grind
  · obtain ⟨h1, h2⟩ := jaro_bounds s t
    have hp4 : (prefixLen s t : Rat) ≤ 4 := by exact_mod_cast prefixLen_le s t
    have hp : (0 : Rat) ≤ (prefixLen s t : Rat) := by exact_mod_cast Nat.zero_le _
    have e1 : (prefixLen s t : Rat) * scaling ≤ 4 * (1 / 4) := by
      have a1 := Rat.mul_le_mul_of_nonneg_left h.2 hp
      have a2 := Rat.mul_le_mul_of_nonneg_right hp4 (show (0 : Rat) ≤ 1 / 4 by grind)
      grind
    have e2 := Rat.mul_le_mul_of_nonneg_right e1 (show (0 : Rat) ≤ 1 - jaro s t by grind)
    grind
  · rw [jaro_self]; grind

example : jaro "MARTHA".toList "MARHTA".toList = 17 / 18 := by decide +kernel

/-! ### C69: ranking -/

variable {ω : Type} [DecidableEq ω]

/-- The candidates that count, with their positions. -/
def candidates (words : List ω) : List (ω × Nat) := words.zipIdx

theorem mem_scored (lower : ω → ω) (skip : ω → ω → Bool) (score : ω → ω → Rat) (word : ω) (th : Rat) (words : List ω) (i : Nat) (m : Match ω) :
    m ∈ scored lower skip score word th words i ↔
      ∃ j, words[j]? = some m.word ∧ m.index = i + j ∧ skip (lower word) (lower m.word) = false ∧ m.score = score (lower word) (lower m.word) ∧ th ≤ m.score := by
  induction words generalizing i with
  | nil => simp [scored]
  | cons w ws ih =>
    have shift : (∃ j, (w :: ws)[j]? = some m.word ∧ m.index = i + j ∧ skip (lower word) (lower m.word) = false ∧ m.score = score (lower word) (lower m.word) ∧ th ≤ m.score) ↔
        (w = m.word ∧ m.index = i ∧ skip (lower word) (lower m.word) = false ∧ m.score = score (lower word) (lower m.word) ∧ th ≤ m.score) ∨
        (∃ j, ws[j]? = some m.word ∧ m.index = i + 1 + j ∧ skip (lower word) (lower m.word) = false ∧ m.score = score (lower word) (lower m.word) ∧ th ≤ m.score) := by
      constructor
      · rintro ⟨j, h1, h2, h3⟩
        cases j with
        | zero => exact Or.inl ⟨by simpa using h1, by simpa using h2, h3⟩
        | succ j => exact Or.inr ⟨j, by simpa using h1, by omega, h3⟩
      · rintro (⟨h1, h2, h3⟩ | ⟨j, h1, h2, h3⟩)
        · exact ⟨0, by simpa using h1, by simpa using h2, h3⟩
        · exact ⟨j + 1, by simpa using h1, by omega, h3⟩
    rw [shift, scored]
    split
    · next hs =>
      rw [ih]
      constructor
      · exact Or.inr
      · rintro (⟨rfl, _, h, _⟩ | h)
        · rw [hs] at h; cases h
        · exact h
    · next hs =>
      have hs' := Bool.eq_false_iff.2 hs
      split
      · next ht =>
        rw [List.mem_cons, ih]
        constructor
        · rintro (rfl | h)
          · exact Or.inl ⟨rfl, rfl, hs', rfl, ht⟩
          · exact Or.inr h
        · rintro (⟨rfl, h2, h3, h4, h5⟩ | h)
          · left
            cases m
            simp at h2 h4 ⊢
            exact ⟨h4, h2⟩
          · exact Or.inr h
      · next ht =>
        rw [ih]
        constructor
        · exact Or.inr
        · rintro (⟨rfl, _, _, h4, h5⟩ | h)
          · rw [h4] at h5; exact absurd h5 ht
          · exact h

theorem scored_pairwise (lower : ω → ω) (skip : ω → ω → Bool) (score : ω → ω → Rat) (word : ω) (th : Rat) (words : List ω) (i : Nat) :
    (scored lower skip score word th words i).Pairwise (fun a b => a.index < b.index) := by
  induction words generalizing i with
  | nil => simp [scored]
  | cons w ws ih =>
    rw [scored]
    split
    · exact ih _
    · split
      · rw [List.pairwise_cons]
        refine ⟨fun m hm => ?_, ih _⟩
        obtain ⟨j, _, h, _⟩ := (mem_scored lower skip score word th ws (i + 1) m).1 hm
        simp only [h]; omega
      · exact ih _

theorem matchLe_total (a b : Match ω) : (matchLe a b || matchLe b a) = true := by
  unfold matchLe
  simp only [Bool.or_eq_true, decide_eq_true_eq]
  by_cases h : a.score = b.score
  · rcases Nat.le_total a.index b.index with h' | h'
    · exact Or.inl (Or.inr ⟨h, h'⟩)
    · exact Or.inr (Or.inr ⟨h.symm, h'⟩)
  · by_cases h' : a.score < b.score
    · exact Or.inr (Or.inl h')
    · refine Or.inl (Or.inl ?_)
      grind

theorem matchLe_trans (a b c : Match ω) (h1 : matchLe a b = true) (h2 : matchLe b c = true) : matchLe a c = true := by
  unfold matchLe at *
  simp only [decide_eq_true_eq] at *
  rcases h1 with h1 | ⟨h1, h1'⟩
  · rcases h2 with h2 | ⟨h2, _⟩
    · left; grind
    · left; grind
  · rcases h2 with h2 | ⟨h2, h2'⟩
    · left; grind
    · right; exact ⟨h1.trans h2, by omega⟩

/-- The result is the list of the words of these matches. -/
def Ranked (lower : ω → ω) (skip : ω → ω → Bool) (score : ω → ω → Rat) (word : ω) (words : List ω) (th : Rat) (ms : List (Match ω)) : Prop :=
  (∀ m, m ∈ ms ↔ words[m.index]? = some m.word ∧ skip (lower word) (lower m.word) = false ∧ m.score = score (lower word) (lower m.word) ∧ th ≤ m.score) ∧
  ms.Pairwise (fun a b => b.score < a.score ∨ (a.score = b.score ∧ a.index < b.index))

/-- C69 (case-insensitive search): the words of exactly the candidates scoring at least the threshold (each position once), best first, ties in input order; `None` if there are none; an error exactly for an empty
candidate list or a threshold outside [0,1]. -/
theorem C69_ranking (lower : ω → ω) (skip : ω → ω → Bool) (score : ω → ω → Rat) (word : ω) (words : List ω) (th : Rat) :
    (stringSimilarity lower skip score false word words th = none ↔ (words = [] ∨ ¬ (0 ≤ th ∧ th ≤ 1))) ∧
    (stringSimilarity lower skip score false word words th = some none → ∀ w ∈ words, skip (lower word) (lower w) = false → ¬ th ≤ score (lower word) (lower w)) ∧
    (∀ r, stringSimilarity lower skip score false word words th = some (some r) →
      r ≠ [] ∧ ∃ ms : List (Match ω), r = ms.map Match.word ∧ Ranked lower skip score word words th ms) := by
  unfold stringSimilarity
  simp only [Bool.false_eq_true, if_false]
  by_cases h0 : words = [] ∨ ¬ (0 ≤ th ∧ th ≤ 1)
  · rw [if_pos h0]
    exact ⟨⟨fun _ => h0, fun _ => rfl⟩, by simp, by simp⟩
  · rw [if_neg h0]
    by_cases h1 : scored lower skip score word th words 0 = []
    · rw [if_pos h1]
      refine ⟨⟨fun h => (by cases h), fun h => absurd h h0⟩, ?_, by simp⟩
      intro _ w hw hs ht
      obtain ⟨j, hj⟩ := List.mem_iff_getElem?.1 hw
      have := (mem_scored lower skip score word th words 0 ⟨w, score (lower word) (lower w), j⟩).2 ⟨j, hj, by simp, hs, rfl, ht⟩
      rw [h1] at this; cases this
    · rw [if_neg h1]
      refine ⟨⟨fun h => (by cases h), fun h => absurd h h0⟩, by simp, ?_⟩
      intro r hr
      simp only [Option.some.injEq] at hr
      subst hr
      have hperm := sortBy_perm matchLe (scored lower skip score word th words 0)
      refine ⟨?_, _, rfl, ?_, ?_⟩
      · intro e
        rw [List.map_eq_nil_iff] at e
        rw [e] at hperm
        exact h1 hperm.nil_eq.symm
      · intro m
        rw [hperm.mem_iff, mem_scored]
        constructor
        · rintro ⟨j, a, b, c⟩
          rw [b, Nat.zero_add]; exact ⟨a, c⟩
        · rintro ⟨a, c⟩
          exact ⟨m.index, a, by omega, c⟩
      · have hsorted : (sortBy matchLe (scored lower skip score word th words 0)).Pairwise (fun a b => matchLe a b = true) :=
          sortBy_sorted _ (fun a b c => matchLe_trans a b c) (fun a b => matchLe_total a b) _
        have hne : (sortBy matchLe (scored lower skip score word th words 0)).Pairwise (fun a b => a.index ≠ b.index) := by
          have h := (scored_pairwise lower skip score word th words 0).imp (fun {a b : Match ω} (h : a.index < b.index) => Nat.ne_of_lt h)
          exact hperm.symm.pairwise h (fun {a b} h => Ne.symm h)
        refine (hsorted.and hne).imp ?_
        intro a b ⟨h1, h2⟩
        unfold matchLe at h1
        simp only [decide_eq_true_eq] at h1
        rcases h1 with h1 | ⟨h1, h3⟩
        · exact Or.inl h1
        · exact Or.inr ⟨h1, by omega⟩

/-- C69: with `return_most_similar` a word is returned exactly when some candidate reaches the threshold; it is the earliest of those with the highest score. -/
theorem C69_most_similar (lower : ω → ω) (skip : ω → ω → Bool) (score : ω → ω → Rat) (word : ω) (words : List ω) (th : Rat) :
    (∀ w, mostSimilar lower skip score false word words th = some (some w) →
      ∃ i : Nat, words[i]? = some w ∧ skip (lower word) (lower w) = false ∧ th ≤ score (lower word) (lower w) ∧
        ∀ (j : Nat) (v : ω), words[j]? = some v → skip (lower word) (lower v) = false →
          score (lower word) (lower v) ≤ score (lower word) (lower w) ∧ (j < i → score (lower word) (lower v) < score (lower word) (lower w))) ∧
    (mostSimilar lower skip score false word words th = some none →
      ∀ w ∈ words, skip (lower word) (lower w) = false → ¬ th ≤ score (lower word) (lower w)) := by
  obtain ⟨_, h2, h3⟩ := C69_ranking lower skip score word words th
  unfold mostSimilar
  cases hr : stringSimilarity lower skip score false word words th with
  | none => simp
  | some o =>
    cases o with
    | none => exact ⟨by simp, fun _ => h2 hr⟩
    | some r =>
      obtain ⟨hne, ms, hms, hmem, hsort⟩ := h3 r hr
      cases ms with
      | nil => exact absurd hms hne
      | cons m ms =>
        subst hms
        refine ⟨?_, by simp [firstWord]⟩
        intro w hw
        simp only [Option.map_some, Option.bind_some, List.map_cons, firstWord, Option.some.injEq] at hw
        subst hw
        obtain ⟨a1, a2, a3, a4⟩ := (hmem m).1 (by simp)
        refine ⟨m.index, a1, a2, a3 ▸ a4, ?_⟩
        intro j v hj hv
        rw [List.pairwise_cons] at hsort
        by_cases hth : th ≤ score (lower word) (lower v)
        · have hin := (hmem ⟨v, score (lower word) (lower v), j⟩).2 ⟨hj, hv, rfl, hth⟩
          rw [List.mem_cons] at hin
          rcases hin with rfl | hin
          · exact ⟨by simp, by simp⟩
          · have := hsort.1 _ hin
            rw [a3] at this
            simp only at this
            rcases this with h | ⟨h, h'⟩
            · exact ⟨by grind, fun _ => h⟩
            · exact ⟨by grind, fun hlt => by omega⟩
        · rw [a3] at a4
          exact ⟨by grind, fun _ => by grind⟩

/-- Non-vacuity: two of three candidates reach the threshold; the better one comes first. -/
example : stringSimilarity id (fun _ _ => false) hammingSim false "abcd".toList ["abxy".toList, "zzzz".toList, "abcx".toList] (1 / 2) =
    some (some ["abcx".toList, "abxy".toList]) := by decide +kernel

/-! ### C106: case sensitivity -/

/-- With `case_sensitive=True` only the best-scoring candidates are returned, not all those reaching the threshold. -/
theorem C106_case_sensitive_violation :
    stringSimilarity id (fun _ _ => false) hammingSim true "abcd".toList ["abxy".toList, "zzzz".toList, "abcx".toList] (1 / 2) = some (some ["abcx".toList]) ∧
    (1 / 2 : Rat) ≤ hammingSim "abcd".toList "abxy".toList := by decide +kernel

theorem onlyBest_mem (l : List (Match ω)) (hs : l.Pairwise (fun a b => matchLe a b = true)) (m : Match ω) :
    m ∈ onlyBest l ↔ m ∈ l ∧ ∀ x ∈ l, x.score ≤ m.score := by
  cases l with
  | nil => simp [onlyBest]
  | cons a r =>
    have hmax : ∀ x ∈ a :: r, x.score ≤ a.score := by
      intro x hx
      rw [List.mem_cons] at hx
      rcases hx with rfl | hx
      · exact Rat.le_refl
      · have := (List.pairwise_cons.1 hs).1 x hx
        unfold matchLe at this
        simp only [decide_eq_true_eq] at this
        rcases this with h | ⟨h, _⟩
        · grind
        · grind
    rw [onlyBest, List.mem_filter]
    simp only [decide_eq_true_eq]
    constructor
    · rintro ⟨h1, h2⟩
      exact ⟨h1, fun x hx => by rw [h2]; exact hmax x hx⟩
    · rintro ⟨h1, h2⟩
      refine ⟨h1, ?_⟩
      have e1 := h2 a (by simp)
      have e2 := hmax m h1
      exact Rat.le_antisymm e2 e1

/-- C106, what is returned instead: the candidates reaching the threshold with the highest score among them, in input order. -/
theorem C106_case_sensitive_partial (lower : ω → ω) (skip : ω → ω → Bool) (score : ω → ω → Rat) (word : ω) (words : List ω) (th : Rat) (r : List ω)
    (h : stringSimilarity lower skip score true word words th = some (some r)) :
    ∃ ms : List (Match ω), r = ms.map Match.word ∧ ms.Pairwise (fun a b => a.index < b.index) ∧
      ∀ m, m ∈ ms ↔ words[m.index]? = some m.word ∧ skip word m.word = false ∧ m.score = score word m.word ∧ th ≤ m.score ∧
        ∀ w ∈ words, skip word w = false → score word w ≤ m.score := by
  unfold stringSimilarity at h
  simp only [if_true] at h
  split at h
  · cases h
  · split at h
    · cases h
    · simp only [Option.some.injEq] at h
      subst h
      have hperm := sortBy_perm matchLe (scored id skip score word th words 0)
      have hsorted : (sortBy matchLe (scored id skip score word th words 0)).Pairwise (fun a b => matchLe a b = true) :=
        sortBy_sorted _ (fun a b c => matchLe_trans a b c) (fun a b => matchLe_total a b) _
      have hne : (sortBy matchLe (scored id skip score word th words 0)).Pairwise (fun a b => a.index ≠ b.index) := by
        have h := (scored_pairwise id skip score word th words 0).imp (fun {a b : Match ω} (h : a.index < b.index) => Nat.ne_of_lt h)
        exact hperm.symm.pairwise h (fun {a b} h => Ne.symm h)
      refine ⟨_, rfl, ?_, ?_⟩
      · have hsub : (onlyBest (sortBy matchLe (scored id skip score word th words 0))).Sublist (sortBy matchLe (scored id skip score word th words 0)) := by
          cases sortBy matchLe (scored id skip score word th words 0) with
          | nil => simp [onlyBest]
          | cons a r => exact List.filter_sublist
        have hp := (hsorted.and hne).sublist hsub
        refine List.Pairwise.imp_of_mem ?_ hp
        intro a b ha hb ⟨h1, h2⟩
        have ea := (onlyBest_mem _ hsorted a).1 ha
        have eb := (onlyBest_mem _ hsorted b).1 hb
        have e1 := ea.2 b eb.1
        have e2 := eb.2 a ea.1
        unfold matchLe at h1
        simp only [decide_eq_true_eq] at h1
        rcases h1 with h1 | ⟨_, h1⟩
        · grind
        · omega
      · intro m
        rw [onlyBest_mem _ hsorted, hperm.mem_iff, mem_scored]
        constructor
        · rintro ⟨⟨j, a, b, c, d, e⟩, hmax⟩
          rw [Nat.zero_add] at b
          subst b
          refine ⟨a, c, d, e, ?_⟩
          intro w hw hsk
          by_cases hth : th ≤ score word w
          · obtain ⟨k, hk⟩ := List.mem_iff_getElem?.1 hw
            have := hmax ⟨w, score word w, k⟩ (by
              rw [hperm.mem_iff, mem_scored]
              exact ⟨k, hk, by simp, hsk, rfl, hth⟩)
            exact this
          · grind
        · rintro ⟨a, c, d, e, hmax⟩
          refine ⟨⟨m.index, a, by omega, c, d, e⟩, ?_⟩
          intro x hx
          rw [hperm.mem_iff, mem_scored] at hx
          obtain ⟨j, a', b', c', d', e'⟩ := hx
          rw [d']
          exact hmax x.word (List.mem_of_getElem? a') c'

end Verif.Sim
