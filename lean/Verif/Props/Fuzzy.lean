import Verif.Model.Fuzzy
import Verif.Props.Operable
import Verif.Props.Similarity

/-!
# Fuzzy LNDL parsing: C52, C53, C109, C112, C113, C114, C115
-/

set_option linter.unusedSectionVars false
set_option linter.unusedSimpArgs false
set_option linter.unusedVariables false

namespace Verif.Fuzzy

open Verif.Parser (Str OutVal)
open Verif.Resolver (LvarMeta LactMeta Spec Ty Ext Output RErr)

/-! ### C52: correcting one name -/

section
variable {ω : Type} [DecidableEq ω]

theorem maxScore_ge (score : ω → Rat) (ws : List ω) (w : ω) (h : w ∈ ws) : score w ≤ maxScore score ws := by
  induction ws with
  | nil => cases h
  | cons v ws ih =>
    cases ws with
    | nil => simp only [List.mem_singleton] at h; subst h; simp [maxScore]
    | cons u us =>
      rw [maxScore]
      rw [List.mem_cons] at h
      rcases h with rfl | h
      · grind
      · have := ih h; grind

theorem argmax_spec (score : ω → Rat) (ws : List ω) (h : ws ≠ []) : ∃ w, argmax score ws = some w ∧ w ∈ ws ∧ score w = maxScore score ws := by
  induction ws with
  | nil => exact absurd rfl h
  | cons v ws ih =>
    cases ws with
    | nil => exact ⟨v, rfl, by simp, rfl⟩
    | cons u us =>
      obtain ⟨w, h1, h2, h3⟩ := ih (by simp)
      rw [argmax, maxScore]
      by_cases hle : maxScore score (u :: us) ≤ score v
      · rw [if_pos hle]
        exact ⟨v, rfl, by simp, by grind⟩
      · rw [if_neg hle]
        exact ⟨w, h1, List.mem_cons_of_mem _ h2, by grind⟩

theorem argmax_nil (score : ω → Rat) (ws : List ω) (h : argmax score ws = none) : ws = [] := by
  apply Classical.byContradiction
  intro hne
  obtain ⟨w, h1, _⟩ := argmax_spec score ws hne
  rw [h] at h1; cases h1

theorem nodup_short {l : List ω} (hl : l.Nodup) (h : ¬ 1 < l.length) {a b : ω} (ha : a ∈ l) (hb : b ∈ l) : a = b := by
  cases l with
  | nil => cases ha
  | cons x l =>
    cases l with
    | nil => simp only [List.mem_singleton] at ha hb; rw [ha, hb]
    | cons y l => exact absurd (by simp) h

theorem two_of_long {l : List ω} (hl : l.Nodup) (h : 1 < l.length) : ∃ a b, a ∈ l ∧ b ∈ l ∧ a ≠ b := by
  cases l with
  | nil => simp at h
  | cons x l =>
    cases l with
    | nil => simp at h
    | cons y l =>
      rw [List.nodup_cons] at hl
      exact ⟨x, y, by simp, by simp, fun e => hl.1 (by simp [e])⟩

/-- `w` leads all others by 0.05. -/
def Leads (score : ω → Rat) (P : ω → Prop) (w : ω) : Prop := P w ∧ ∀ v, P v → v ≠ w → score v + 1 / 20 ≤ score w

theorem choose_spec (score : ω → Rat) (ws : List ω) (hnd : ws.Nodup) (hne : ws ≠ []) :
    (∃ w, choose score ws = .ok w ∧ Leads score (· ∈ ws) w) ∨ (choose score ws = .error .ambiguous ∧ ¬ ∃ w, Leads score (· ∈ ws) w) := by
  have hfn : (ws.filter (fun w => near (score w) (maxScore score ws))).Nodup := hnd.sublist List.filter_sublist
  obtain ⟨w, h1, h2, h3⟩ := argmax_spec score ws hne
  have hnear : ∀ v, v ∈ ws.filter (fun w => near (score w) (maxScore score ws)) ↔ v ∈ ws ∧ score w < score v + 1 / 20 := by
    intro v
    rw [List.mem_filter, near, decide_eq_true_eq, ← h3]
    constructor
    · rintro ⟨a, b, c⟩; exact ⟨a, by grind⟩
    · rintro ⟨a, b⟩
      have := maxScore_ge score ws v a
      rw [← h3] at this
      exact ⟨a, by grind, by grind⟩
  unfold choose
  by_cases hlen : 1 < (ws.filter (fun w => near (score w) (maxScore score ws))).length
  · right
    rw [if_pos hlen]
    refine ⟨rfl, ?_⟩
    rintro ⟨u, hu, hlead⟩
    obtain ⟨a, b, ha, hb, hab⟩ := two_of_long hfn hlen
    obtain ⟨ha1, ha2⟩ := (hnear a).1 ha
    obtain ⟨hb1, hb2⟩ := (hnear b).1 hb
    have hw := maxScore_ge score ws u hu
    rw [← h3] at hw
    by_cases hau : a = u
    · subst hau
      have := hlead b hb1 (Ne.symm hab)
      grind
    · have := hlead a ha1 hau
      grind
  · left
    rw [if_neg hlen, h1]
    refine ⟨w, rfl, h2, ?_⟩
    intro v hv hvw
    apply Classical.byContradiction
    intro hlt
    apply hvw
    exact nodup_short hfn hlen ((hnear v).2 ⟨hv, by grind⟩) ((hnear w).2 ⟨h2, by grind⟩)

/-- A candidate close enough to the target, without regard to case. -/
def Close (lower : ω → ω) (score : ω → ω → Rat) (th : Rat) (target : ω) (cands : List ω) (w : ω) : Prop := w ∈ cands ∧ th ≤ score (lower target) (lower w)

theorem sim_mem (lower : ω → ω) (score : ω → ω → Rat) (th : Rat) (target : ω) (cands r : List ω)
    (h : Sim.stringSimilarity lower (fun _ _ => false) score false target cands th = some (some r)) (w : ω) :
    w ∈ r ↔ Close lower score th target cands w := by
  obtain ⟨_, ms, hms, hmem, _⟩ := (Sim.C69_ranking lower (fun _ _ => false) score target cands th).2.2 r h
  rw [hms, List.mem_map]
  constructor
  · rintro ⟨m, hm, rfl⟩
    obtain ⟨h1, h2, h3, h4⟩ := (hmem m).1 hm
    exact ⟨List.mem_of_getElem? h1, h3 ▸ h4⟩
  · rintro ⟨h1, h2⟩
    obtain ⟨i, hi⟩ := List.mem_iff_getElem?.1 h1
    exact ⟨⟨w, score (lower target) (lower w), i⟩, (hmem _).2 ⟨hi, rfl, rfl, h2⟩, rfl⟩

/-- The possible outcomes of a correction. -/
theorem correctName_cases (lower : ω → ω) (score : ω → ω → Rat) (th : Rat) (target : ω) (cands : List ω) :
    (target ∈ cands ∧ correctName lower score th target cands = .ok target) ∨
    (target ∉ cands ∧ 1 ≤ th ∧ correctName lower score th target cands = .error .missing) ∨
    (target ∉ cands ∧ th < 1 ∧ (cands = [] ∨ th < 0) ∧ correctName lower score th target cands = .error .value) ∨
    (target ∉ cands ∧ th < 1 ∧ cands ≠ [] ∧ 0 ≤ th ∧ (∀ w, ¬ Close lower score th target cands w) ∧ correctName lower score th target cands = .error .missing) ∨
    (target ∉ cands ∧ th < 1 ∧ cands ≠ [] ∧ 0 ≤ th ∧ (∃ w, Close lower score th target cands w) ∧ (¬ ∃ w, Leads (score target) (Close lower score th target cands) w) ∧
      correctName lower score th target cands = .error .ambiguous) ∨
    (target ∉ cands ∧ th < 1 ∧ cands ≠ [] ∧ 0 ≤ th ∧ ∃ w, Leads (score target) (Close lower score th target cands) w ∧ correctName lower score th target cands = .ok w) := by
  unfold correctName
  by_cases h1 : target ∈ cands
  · exact Or.inl ⟨h1, by rw [if_pos h1]⟩
  · rw [if_neg h1]
    by_cases h2 : 1 ≤ th
    · exact Or.inr (Or.inl ⟨h1, h2, by rw [if_pos h2]⟩)
    · rw [if_neg h2]
      have h2' : th < 1 := by grind
      right; right
      obtain ⟨r1, r2, r3⟩ := Sim.C69_ranking lower (fun _ _ => false) score target cands th
      cases hs : Sim.stringSimilarity lower (fun _ _ => false) score false target cands th with
      | none =>
        left
        refine ⟨h1, h2', ?_, rfl⟩
        rcases r1.1 hs with h | h
        · exact Or.inl h
        · right
          apply Classical.byContradiction
          intro h0
          exact h ⟨by grind, by grind⟩
      | some o =>
        right
        have hok : cands ≠ [] ∧ 0 ≤ th := by
          refine ⟨fun e => ?_, ?_⟩
          · rw [r1.2 (Or.inl e)] at hs; cases hs
          · apply Classical.byContradiction
            intro h0
            rw [r1.2 (Or.inr (fun h => h0 h.1))] at hs; cases hs
        cases o with
        | none =>
          left
          exact ⟨h1, h2', hok.1, hok.2, fun w hw => r2 hs w hw.1 rfl hw.2, rfl⟩
        | some r =>
          right
          have hmem := sim_mem lower score th target cands r hs
          have hne := (r3 r hs).1
          have hP : ∀ w, w ∈ r.eraseDups ↔ Close lower score th target cands w := fun w => by rw [List.mem_eraseDups]; exact hmem w
          have hne' : r.eraseDups ≠ [] := by
            intro e
            cases r with
            | nil => exact hne rfl
            | cons x xs =>
              have : x ∈ (x :: xs).eraseDups := by rw [List.mem_eraseDups]; simp
              rw [e] at this; cases this
          have hlead : ∀ w, Leads (score target) (· ∈ r.eraseDups) w ↔ Leads (score target) (Close lower score th target cands) w := by
            intro w
            unfold Leads
            simp only [hP]
          rcases choose_spec (score target) r.eraseDups (Sim.nodup_eraseDups r) hne' with ⟨w, hw, hl⟩ | ⟨hw, hl⟩
          · exact Or.inr ⟨h1, h2', hok.1, hok.2, w, (hlead w).1 hl, hw⟩
          · refine Or.inl ⟨h1, h2', hok.1, hok.2, ?_, fun ⟨w, h⟩ => hl ⟨w, (hlead w).2 h⟩, hw⟩
            cases r with
            | nil => exact absurd rfl hne
            | cons x xs => exact ⟨x, (hmem x).1 (by simp)⟩

theorem leads_unique (score : ω → Rat) (P : ω → Prop) (a b : ω) (ha : Leads score P a) (hb : Leads score P b) : a = b := by
  apply Classical.byContradiction
  intro hab
  have h1 := ha.2 b hb.1 (Ne.symm hab)
  have h2 := hb.2 a ha.1 hab
  grind

/-- C52: the result of a correction.  The name itself, if it is a candidate.  Otherwise the candidate that leads all other close candidates by at least 0.05; close means: a case-insensitive similarity of at least the
threshold. -/
theorem C52_result (lower : ω → ω) (score : ω → ω → Rat) (th : Rat) (target : ω) (cands : List ω) (w : ω) :
    correctName lower score th target cands = .ok w ↔
      (target ∈ cands ∧ w = target) ∨
      (target ∉ cands ∧ 0 ≤ th ∧ th < 1 ∧ (w ∈ cands ∧ th ≤ score (lower target) (lower w)) ∧
        ∀ v ∈ cands, v ≠ w → th ≤ score (lower target) (lower v) → score target v + 1 / 20 ≤ score target w) := by
  rcases correctName_cases lower score th target cands with ⟨h1, h⟩ | ⟨h1, h2, h⟩ | ⟨h1, h2, h3, h⟩ | ⟨h1, h2, h3, h4, h5, h⟩ | ⟨h1, h2, h3, h4, h5, h6, h⟩ | ⟨h1, h2, h3, h4, u, h5, h⟩
  · rw [h]; simp only [Except.ok.injEq, h1, true_and, not_true_eq_false, false_and, or_false]; exact eq_comm
  · rw [h]; simp only [reduceCtorEq, h1, false_and, false_or, not_false_eq_true, true_and, false_iff]; rintro ⟨_, h', _⟩; grind
  · rw [h]; simp only [reduceCtorEq, h1, false_and, false_or, not_false_eq_true, true_and, false_iff]
    rintro ⟨a, _, ⟨b, _⟩, _⟩
    rcases h3 with rfl | h3
    · cases b
    · grind
  · rw [h]; simp only [reduceCtorEq, h1, false_and, false_or, not_false_eq_true, true_and, false_iff]
    rintro ⟨_, _, b, _⟩; exact h5 w b
  · rw [h]; simp only [reduceCtorEq, h1, false_and, false_or, not_false_eq_true, true_and, false_iff]
    rintro ⟨_, _, b, c⟩; exact h6 ⟨w, b, fun v hv hvw => c v hv.1 hvw hv.2⟩
  · rw [h]; simp only [Except.ok.injEq, h1, false_and, false_or, not_false_eq_true, true_and, h4, h2]
    constructor
    · rintro rfl; exact ⟨h5.1, fun v hv hvw ht => h5.2 v ⟨hv, ht⟩ hvw⟩
    · rintro ⟨b, c⟩; exact leads_unique _ _ u w h5 ⟨b, fun v hv hvw => c v hv.1 hvw hv.2⟩

/-- C52: which error.  Ambiguous: there are close candidates, and none leads.  Missing: none is close, or the threshold is at least 1.  (No candidates or a negative threshold are a `ValueError`.) -/
theorem C52_errors (lower : ω → ω) (score : ω → ω → Rat) (th : Rat) (target : ω) (cands : List ω) (hnot : target ∉ cands) :
    (1 ≤ th → correctName lower score th target cands = .error .missing) ∧
    (th < 1 → cands = [] ∨ th < 0 → correctName lower score th target cands = .error .value) ∧
    (0 ≤ th → th < 1 → cands ≠ [] → (∀ w ∈ cands, score (lower target) (lower w) < th) → correctName lower score th target cands = .error .missing) ∧
    (0 ≤ th → th < 1 → (∃ w ∈ cands, th ≤ score (lower target) (lower w)) →
      (∀ w ∈ cands, th ≤ score (lower target) (lower w) → ∃ v ∈ cands, v ≠ w ∧ th ≤ score (lower target) (lower v) ∧ score target w < score target v + 1 / 20) →
      correctName lower score th target cands = .error .ambiguous) := by
  rcases correctName_cases lower score th target cands with ⟨h1, h⟩ | ⟨h1, h2, h⟩ | ⟨h1, h2, h3, h⟩ | ⟨h1, h2, h3, h4, h5, h⟩ | ⟨h1, h2, h3, h4, h5, h6, h⟩ | ⟨h1, h2, h3, h4, u, h5, h⟩
  · exact absurd h1 hnot
  · exact ⟨fun _ => h, fun h' => (by grind), fun _ h' => (by grind), fun _ h' => (by grind)⟩
  · refine ⟨fun h' => (by grind), fun _ _ => h, fun a _ b => ?_, fun a _ b => ?_⟩
    · rcases h3 with h3 | h3
      · exact absurd h3 b
      · grind
    · rcases h3 with h3 | h3
      · subst h3; obtain ⟨w, hw, _⟩ := b; cases hw
      · grind
  · refine ⟨fun h' => (by grind), fun _ h' => ?_, fun _ _ _ _ => h, fun _ _ ⟨w, hw, ht⟩ => absurd ⟨hw, ht⟩ (h5 w)⟩
    rcases h' with h' | h'
    · exact absurd h' h3
    · grind
  · refine ⟨fun h' => (by grind), fun _ h' => ?_, fun _ _ _ hn => ?_, fun _ _ _ _ => h⟩
    · rcases h' with h' | h'
      · exact absurd h' h3
      · grind
    · obtain ⟨w, hw, ht⟩ := h5
      have := hn w hw
      grind
  · refine ⟨fun h' => (by grind), fun _ h' => ?_, fun _ _ _ hn => ?_, fun _ _ _ hn => ?_⟩
    · rcases h' with h' | h'
      · exact absurd h' h3
      · grind
    · have := hn u h5.1.1
      have := h5.1.2
      grind
    · obtain ⟨v, hv, hvu, ht, hlt⟩ := hn u h5.1.1 h5.1.2
      have := h5.2 v ⟨hv, ht⟩ hvu
      grind

/-- C52: the outcome depends only on the set of candidates (they are passed in the iteration order of a set). -/
theorem C52_order_free (lower : ω → ω) (score : ω → ω → Rat) (th : Rat) (target : ω) (c c' : List ω) (h : ∀ w, w ∈ c ↔ w ∈ c') :
    correctName lower score th target c = correctName lower score th target c' := by
  have hC : Close lower score th target c = Close lower score th target c' := by funext w; unfold Close; rw [h w]
  have hnil : c = [] ↔ c' = [] := by
    constructor
    · rintro rfl
      cases c' with
      | nil => rfl
      | cons x xs => exact absurd ((h x).2 (by simp)) (by simp)
    · rintro rfl
      cases c with
      | nil => rfl
      | cons x xs => exact absurd ((h x).1 (by simp)) (by simp)
  have hd : ∀ w, correctName lower score th target c = .ok w → correctName lower score th target c' = .ok w := by
    intro w hw
    rw [C52_result] at hw ⊢
    rcases hw with ⟨a, b⟩ | ⟨a, b, d, ⟨e, f⟩, g⟩
    · exact Or.inl ⟨(h _).1 a, b⟩
    · exact Or.inr ⟨fun x => a ((h _).2 x), b, d, ⟨(h _).1 e, f⟩, fun v hv => g v ((h v).2 hv)⟩
  rcases correctName_cases lower score th target c with ⟨h1, e⟩ | ⟨h1, h2, e⟩ | ⟨h1, h2, h3, e⟩ | ⟨h1, h2, h3, h4, h5, e⟩ | ⟨h1, h2, h3, h4, h5, h6, e⟩ | ⟨h1, h2, h3, h4, u, h5, e⟩
  · rw [e, hd _ e]
  · rw [e, (C52_errors lower score th target c' (fun x => h1 ((h _).2 x))).1 h2]
  · rw [e, (C52_errors lower score th target c' (fun x => h1 ((h _).2 x))).2.1 h2 (by rw [← hnil]; exact h3)]
  · rw [e, (C52_errors lower score th target c' (fun x => h1 ((h _).2 x))).2.2.1 h4 h2 (fun x => h3 (hnil.2 x)) (fun w hw => by
      have := h5 w; unfold Close at this; rw [h w] at this; have := fun x => this ⟨hw, x⟩; grind)]
  · rw [hC] at h5 h6
    rw [e, (C52_errors lower score th target c' (fun x => h1 ((h _).2 x))).2.2.2 h4 h2 h5 (fun w hw ht => by
      apply Classical.byContradiction
      intro hno
      apply h6
      refine ⟨w, ⟨hw, ht⟩, fun v hv hvw => ?_⟩
      apply Classical.byContradiction
      intro hlt
      exact hno ⟨v, hv.1, hvw, hv.2, by grind⟩)]
  · rw [e, hd _ e]

theorem correctName_mem {lower : ω → ω} {score : ω → ω → Rat} {th : Rat} {target : ω} {cands : List ω} {w : ω}
    (h : correctName lower score th target cands = .ok w) : w ∈ cands := by
  rw [C52_result] at h
  rcases h with ⟨a, b⟩ | ⟨_, _, _, ⟨a, _⟩, _⟩
  · rw [b]; exact a
  · exact a

theorem correctName_exact {lower : ω → ω} {score : ω → ω → Rat} {th : Rat} {target : ω} {cands : List ω} (h : target ∈ cands) :
    correctName lower score th target cands = .ok target := (C52_result lower score th target cands target).2 (Or.inl ⟨h, rfl⟩)

end

/-- Jaro-Winkler with the default scaling. -/
def jw (a b : Str) : Rat := (Sim.jaroWinkler (1 / 10) a b).getD 0

/-- Non-vacuity: the example of the documentation. -/
example : correctName id jw (85 / 100) "titel".toList ["title".toList, "content".toList] = .ok "title".toList := by decide +kernel
example : correctName id jw (85 / 100) "item3".toList ["item1".toList, "item2".toList] = .error .ambiguous := by decide +kernel
example : correctName id jw (85 / 100) "summary".toList ["title".toList, "content".toList] = .error .missing := by decide +kernel

/-! ### C114: case -/

/-- `str.lower` on ASCII letters. -/
def asciiLower (s : Str) : Str := s.map Char.toLower

/-- C114 fails: a candidate equal up to case loses against another one, as the final choice is made by case-sensitive similarity. -/
theorem C114_case_violation :
    correctName asciiLower jw (85 / 100) "TITLE".toList ["title".toList, "Tile".toList] = .ok "Tile".toList ∧
    jw (asciiLower "TITLE".toList) (asciiLower "title".toList) = 1 ∧ jw (asciiLower "TITLE".toList) (asciiLower "Tile".toList) < 1 := by decide +kernel

/-- C114 where it holds: when the score of each candidate is the same with and without regard to case, the candidate chosen has the highest similarity. -/
theorem C114_best_partial {ω : Type} [DecidableEq ω] (lower : ω → ω) (score : ω → ω → Rat) (th : Rat) (target : ω) (cands : List ω) (w : ω)
    (hcase : ∀ v ∈ cands, score (lower target) (lower v) = score target v) (hn : target ∉ cands)
    (h : correctName lower score th target cands = .ok w) (v : ω) (hv : v ∈ cands) : score (lower target) (lower v) ≤ score (lower target) (lower w) := by
  rw [C52_result] at h
  rcases h with ⟨a, _⟩ | ⟨_, _, _, ⟨a, b⟩, c⟩
  · exact absurd a hn
  · by_cases hvw : v = w
    · subst hvw; grind
    · by_cases hth : th ≤ score (lower target) (lower v)
      · have := c v hv hvw hth
        rw [hcase v hv, hcase w a]
        grind
      · grind

/-- C114, exactly: the name chosen has the highest similarity without regard to case unless some candidate that is less similar with regard to
case (by 0.05 or more) is more similar without. -/
theorem C114_exact_partial {ω : Type} [DecidableEq ω] (lower : ω → ω) (score : ω → ω → Rat) (th : Rat) (target : ω) (cands : List ω) (w : ω)
    (hn : target ∉ cands) (h : correctName lower score th target cands = .ok w) :
    (∀ v ∈ cands, score (lower target) (lower v) ≤ score (lower target) (lower w)) ↔
    ¬ ∃ v ∈ cands, score target v + 1 / 20 ≤ score target w ∧ score (lower target) (lower w) < score (lower target) (lower v) := by
  rw [C52_result] at h
  rcases h with ⟨a, _⟩ | ⟨_, _, _, ⟨a, b⟩, c⟩
  · exact absurd a hn
  · constructor
    · rintro hall ⟨v, hv, _, hlt⟩
      have := hall v hv
      grind
    · intro hex v hv
      by_cases hle : score (lower target) (lower v) ≤ score (lower target) (lower w)
      · exact hle
      · exfalso
        refine hex ⟨v, hv, ?_, by grind⟩
        exact c v hv (by intro e; subst e; exact hle (by grind)) (by grind)

/-! ### The pipeline -/

variable {ν κ μ : Type}

theorem fixOut_spec (env : Env) (th : Thresholds) (names : List Str) (l : List (Str × OutVal)) (d d' : Dict Str OutVal) (hd : d.WF) (h : fixOut env th names l d = .ok d') :
    d'.WF ∧ (∀ k ∈ d'.keys, k ∈ d.keys ∨ k ∈ names) ∧ (∀ k, k ∈ d.keys → k ∈ d'.keys) ∧
    (∀ kv ∈ l, ∃ k', correctName env.lower env.score th.spec kv.1 names = .ok k' ∧ k' ∈ d'.keys) ∧
    (∀ v k, (∀ kv ∈ l, correctName env.lower env.score th.spec kv.1 names ≠ .ok k) → d.get? k = some v → d'.get? k = some v) := by
  induction l generalizing d with
  | nil =>
    rw [fixOut] at h
    cases h
    exact ⟨hd, fun k hk => Or.inl hk, fun k hk => hk, by simp, fun v k _ h => h⟩
  | cons kv l ih =>
    obtain ⟨k, v⟩ := kv
    rw [fixOut] at h
    split at h
    · cases h
    · next k' hk' =>
      obtain ⟨h1, h2, h3, h4, h5⟩ := ih (d.set k' v) (Dict.set_wf hd _ _) h
      refine ⟨h1, ?_, ?_, ?_, ?_⟩
      · intro j hj
        rcases h2 j hj with h | h
        · rw [Dict.mem_keys_set] at h
          rcases h with h | h
          · first
              | (subst h; exact Or.inr (correctName_mem hk'))
              | exact Or.inl h
          · first
              | (subst h; exact Or.inr (correctName_mem hk'))
              | exact Or.inl h
        · exact Or.inr h
      · intro j hj
        exact h3 j ((Dict.mem_keys_set _ _ _ _).2 (by first | exact Or.inl hj | exact Or.inr hj))
      · intro kv hkv
        rw [List.mem_cons] at hkv
        rcases hkv with rfl | hkv
        · exact ⟨k', hk', h3 k' ((Dict.mem_keys_set _ _ _ _).2 (by first | exact Or.inl rfl | exact Or.inr rfl))⟩
        · exact h4 kv hkv
      · intro w j hne hg
        apply h5 w j (fun kv hkv => hne kv (List.mem_cons_of_mem _ hkv))
        rw [Dict.get?_set]
        have : j ≠ k' := fun e => hne (k, v) (by simp) (by rw [hk', e])
        rw [if_neg (by first | exact this | exact Ne.symm this)]
        exact hg

/-- With distinct corrected names, every field keeps its value under its corrected name. -/
theorem fixOut_inj (env : Env) (th : Thresholds) (names : List Str) (l : List (Str × OutVal)) (d d' : Dict Str OutVal) (hd : d.WF) (h : fixOut env th names l d = .ok d')
    (hinj : l.Pairwise (fun a b => correctName env.lower env.score th.spec a.1 names ≠ correctName env.lower env.score th.spec b.1 names)) :
    ∀ k v, (k, v) ∈ l → ∃ k', correctName env.lower env.score th.spec k names = .ok k' ∧ d'.get? k' = some v := by
  induction l generalizing d with
  | nil => intro k v hkv; cases hkv
  | cons kv l ih =>
    obtain ⟨k, v⟩ := kv
    rw [fixOut] at h
    rw [List.pairwise_cons] at hinj
    split at h
    · cases h
    · next k' hk' =>
      intro j w hjw
      rw [List.mem_cons] at hjw
      rcases hjw with e | hjw
      · cases e
        refine ⟨k', hk', ?_⟩
        apply (fixOut_spec env th names l (d.set k' v) d' (Dict.set_wf hd _ _) h).2.2.2.2 v k'
        · intro kv hkv e
          exact hinj.1 kv hkv (by rw [hk', e])
        · rw [Dict.get?_set]; simp
      · exact ih (d.set k' v) (Dict.set_wf hd _ _) h hinj.2 j w hjw

theorem fixVals_keys (env : Env) (th : Thresholds) (avail : List Str) (l : List (Str × OutVal)) (d : Dict Str OutVal) (h : fixVals env th avail l = .ok d) : d.keys = Dict.keys l := by
  induction l generalizing d with
  | nil => rw [fixVals] at h; cases h; rfl
  | cons kv l ih =>
    obtain ⟨k, v⟩ := kv
    rw [fixVals] at h
    split at h
    · cases h
    · split at h
      · cases h
      · next d' hd' => cases h; simp [ih d' hd']

theorem runStrict_ok {ext : Ext ν κ μ} {specs : List Spec} {x : Fixed} {o : Output ν κ μ} (h : runStrict ext specs x = .ok o) : Resolver.resolve ext x.out x.lvars x.lacts specs = .ok o := by
  unfold runStrict at h
  split at h
  · next o' ho => cases h; exact ho
  · cases h

theorem correctAll_out {env : Env} {th : Thresholds} {names : List Str} {sm : Dict Str (Spec × Bool)} {out : Dict Str OutVal} {lvars : Dict Str LvarMeta} {lacts : Dict Str LactMeta} {y : Fixed}
    (h : correctAll env th names sm out lvars lacts = .ok y) : ∃ out1, fixOut env th names out [] = .ok out1 ∧ y.out.keys = out1.keys := by
  unfold correctAll at h
  split at h
  · cases h
  · split at h
    · cases h
    · unfold correctOut at h
      split at h
      · cases h
      · next out1 h1 =>
        split at h
        · cases h
        · next out2 h2 => cases h; exact ⟨out1, h1, fixVals_keys _ _ _ _ _ h2⟩

/-- The number of fields cannot shrink when the corrected names are distinct. -/
theorem strictOk_names {env : Env} {names : List Str} {sm : Dict Str (Spec × Bool)} {out : Dict Str OutVal} {lvars : Dict Str LvarMeta} {lacts : Dict Str LactMeta}
    (h : strictOk env names sm out lvars lacts = true) : (∀ l ∈ lvars, strictLvar env names sm l.2 = true) ∧ (∀ l ∈ lacts, strictLact env names sm l.2 = true) ∧ ∀ k ∈ out.keys, k ∈ names := by
  unfold strictOk at h
  simp only [Bool.and_eq_true, List.all_eq_true, decide_eq_true_eq] at h
  exact ⟨h.1.1, h.1.2, h.2⟩

/-! ### C53 -/

def jwEnv (specs : List Spec) (fields : List Str) : Env := ⟨specs, none, fun _ => fields, id, jw⟩

def titleSpec : Spec := ⟨some "title".toList, .scalar 0, true, 0⟩

/-- C53 fails: both fields of the OUT block are corrected to the same name; the first one is dropped without an error. -/
theorem C53_dropped_violation :
    parseFuzzy (jwEnv [titleSpec] []) Resolver.demoExt (mkThresholds (85 / 100) none none none none) none
      ⟨[], [], some [("titl".toList, .str ['a']), ("titel".toList, .str ['b'])]⟩ = .ok ⟨[("title".toList, .scalar ['b'])], []⟩ := by decide +kernel

/-- C53 where it holds: when the names of the OUT block are corrected to different names, each reaches the result. -/
theorem C53_all_fields_partial (env : Env) (ext : Ext ν κ μ) (th : Thresholds) (specs : List Spec) (names : List Str) (x : Fixed) (hx : x.out.WF) (o : Output ν κ μ)
    (h : fuzzyCore env ext th specs names x = .ok o) :
    (1 ≤ th.main → o.fields.keys = x.out.keys) ∧
    (th.main < 1 → (x.out.Pairwise (fun a b => correctName env.lower env.score th.spec a.1 names ≠ correctName env.lower env.score th.spec b.1 names)) →
      (∀ k ∈ x.out.keys, ∃ k', correctName env.lower env.score th.spec k names = .ok k' ∧ k' ∈ o.fields.keys)) := by
  unfold fuzzyCore at h
  by_cases hm : 1 ≤ th.main
  · rw [if_pos hm] at h
    split at h
    · next hs =>
      have hr := runStrict_ok h
      exact ⟨fun _ => (Resolver.C50_sound ext x.out hx x.lvars x.lacts specs o hr).2.2.2.2.1, fun hlt => (by grind)⟩
    · cases h
  · rw [if_neg hm] at h
    refine ⟨fun h' => absurd h' hm, fun _ hinj => ?_⟩
    split at h
    · cases h
    · next y hy =>
      have hr := runStrict_ok h
      obtain ⟨out1, h1, h2⟩ := correctAll_out hy
      have hwf1 := (fixOut_spec env th names x.out [] out1 (by simp [Dict.WF]) h1).1
      have hywf : y.out.WF := by unfold Dict.WF; rw [h2]; exact hwf1
      have hk := (Resolver.C50_sound ext y.out hywf y.lvars y.lacts specs o hr).2.2.2.2.1
      intro k hkm
      obtain ⟨⟨k', v⟩, hkv, rfl⟩ := List.mem_map.1 hkm
      obtain ⟨j, e1, e2⟩ := fixOut_inj env th names x.out [] out1 (by simp [Dict.WF]) h1 hinj k' v hkv
      exact ⟨j, e1, by rw [hk, h2]; exact Dict.mem_keys_of_get? e2⟩

/-- Non-vacuity: two fields corrected to two names. -/
example : parseFuzzy (jwEnv [titleSpec, ⟨some "content".toList, .scalar 0, true, 1⟩] []) Resolver.demoExt (mkThresholds (85 / 100) none none none none) none
      ⟨[], [], some [("titl".toList, .str ['a']), ("contnt".toList, .str ['b'])]⟩ = .ok ⟨[("title".toList, .scalar ['a']), ("content".toList, .scalar ['b'])], []⟩ := by decide +kernel

/-! ### C115: capabilities -/

theorem active_names {env : Env} {cs : List Str} {specs : List Spec} {names : List Str} (h : active env (some cs) = .ok (specs, names)) :
    names = cs.eraseDups ∧ ∀ c ∈ cs, ∃ s ∈ env.specs, s.name = some c := by
  unfold active at h
  simp only at h
  split at h
  · next hc =>
    split at h
    · cases h; exact ⟨rfl, (Operable.checkAllowed_iff _ _ _).1 hc⟩
    · cases h
  · cases h

/-- C115: with a list of capabilities, all of them name specs, and the result has fields for capabilities only. -/
theorem C115_capabilities (env : Env) (ext : Ext ν κ μ) (th : Thresholds) (cs : List Str) (p : Parser.Program) (hp : ∀ out, p.out = some out → Dict.WF out) (o : Output ν κ μ)
    (h : parseFuzzy env ext th (some cs) p = .ok o) :
    (∀ c ∈ cs, ∃ s ∈ env.specs, s.name = some c) ∧ ∀ f ∈ o.fields.keys, f ∈ cs := by
  unfold parseFuzzy at h
  split at h
  · cases h
  · next specs names hact =>
    obtain ⟨hn, hcs⟩ := active_names hact
    refine ⟨hcs, ?_⟩
    have hmem : ∀ k, k ∈ names → k ∈ cs := fun k hk => by rw [hn, List.mem_eraseDups] at hk; exact hk
    split at h
    · cases h
    · next out hout =>
      have hwf := hp out hout
      unfold fuzzyCore at h
      split at h
      · split at h
        · next hs =>
          have hr := runStrict_ok h
          rw [(Resolver.C50_sound ext out hwf _ _ specs o hr).2.2.2.2.1]
          exact fun f hf => hmem f ((strictOk_names hs).2.2 f hf)
        · cases h
      · split at h
        · cases h
        · next y hy =>
          have hr := runStrict_ok h
          obtain ⟨out1, h1, h2⟩ := correctAll_out hy
          obtain ⟨w1, w2, _⟩ := fixOut_spec env th names out [] out1 (by simp [Dict.WF]) h1
          have hywf : y.out.WF := by unfold Dict.WF; rw [h2]; exact w1
          rw [(Resolver.C50_sound ext y.out hywf y.lvars y.lacts specs o hr).2.2.2.2.1, h2]
          intro f hf
          rcases w2 f hf with h | h
          · cases h
          · exact hmem f h

example : parseFuzzy (jwEnv [titleSpec, ⟨some "content".toList, .scalar 0, true, 1⟩] []) Resolver.demoExt (mkThresholds (85 / 100) none none none none) (some ["title".toList])
      ⟨[], [], some [("titl".toList, .str ['a'])]⟩ = .ok ⟨[("title".toList, .scalar ['a'])], []⟩ := by decide +kernel

/-! ### C112: strict mode -/

/-- The names of models that may be used in declarations: the class of a model-based spec, or the name of the operable (with or without `Response`) for its field-based specs. -/
def KnownField (env : Env) (specs : List Spec) (names : List Str) (m f : Str) : Prop :=
  (∃ s ∈ specs, s.ty = .model m ∧ f ∈ env.modelFields s) ∨
  (∃ n, env.opName = some n ∧ (m = n ∨ m = n ++ "Response".toList) ∧ f ∈ names)

theorem addVirtual_entry {opName : Option Str} {s : Spec} {d : Dict Str (Spec × Bool)} {m : Str} {e : Spec × Bool} (h : (addVirtual opName s d).get? m = some e) :
    d.get? m = some e ∨ (e.2 = false ∧ ∃ n, opName = some n ∧ (m = n ∨ m = n ++ "Response".toList)) := by
  unfold addVirtual at h
  split at h
  · exact Or.inl h
  · exact Or.inl h
  · next n hn =>
    split at h
    · exact Or.inl h
    · split at h
      · rw [Dict.get?_set] at h
        split at h
        · next he => cases h; exact Or.inr ⟨rfl, n, rfl, Or.inl (by first | exact he | exact he.symm)⟩
        · exact Or.inl h
      · rw [Dict.get?_set] at h
        split at h
        · next he => cases h; exact Or.inr ⟨rfl, n, rfl, Or.inr (by first | exact he | exact he.symm)⟩
        · rw [Dict.get?_set] at h
          split at h
          · next he => cases h; exact Or.inr ⟨rfl, n, rfl, Or.inl (by first | exact he | exact he.symm)⟩
          · exact Or.inl h

theorem modelName_iff (s : Spec) (n : Str) : modelName s = some n ↔ s.ty = .model n := by
  unfold modelName
  cases s.ty <;> simp

theorem specMap_entry (opName : Option Str) (all specs : List Spec) (hsub : ∀ s ∈ specs, s ∈ all) (d : Dict Str (Spec × Bool))
    (hd : ∀ m e, d.get? m = some e → (e.2 = true ∧ e.1 ∈ all ∧ e.1.ty = .model m) ∨ (e.2 = false ∧ ∃ n, opName = some n ∧ (m = n ∨ m = n ++ "Response".toList))) :
    ∀ m e, (specs.foldl (specStep opName) d).get? m = some e →
      (e.2 = true ∧ e.1 ∈ all ∧ e.1.ty = .model m) ∨ (e.2 = false ∧ ∃ n, opName = some n ∧ (m = n ∨ m = n ++ "Response".toList)) := by
  induction specs generalizing d with
  | nil => exact hd
  | cons s ss ih =>
    rw [List.foldl_cons]
    apply ih (fun t ht => hsub t (List.mem_cons_of_mem _ ht))
    intro m e he
    unfold specStep at he
    split at he
    · next n hn =>
      rw [Dict.get?_set] at he
      split at he
      · next hm =>
        cases he
        have : m = n := by first | exact hm | exact hm.symm
        subst this
        exact Or.inl ⟨rfl, hsub s (by simp), (modelName_iff s m).1 hn⟩
      · exact hd m e he
    · rcases addVirtual_entry he with h | h
      · exact hd m e h
      · exact Or.inr h

theorem strictNs_known {env : Env} {specs : List Spec} {names : List Str} {m f : Str} (h : strictNs env names (specMap env.opName specs) m f = true) : KnownField env specs names m f := by
  unfold strictNs at h
  split at h
  · cases h
  · next e he =>
    rw [decide_eq_true_eq] at h
    unfold expectedFields at h
    rcases specMap_entry env.opName specs specs (fun _ h => h) [] (by simp) m e he with ⟨a, b, c⟩ | ⟨a, n, b, c⟩
    · rw [if_pos a] at h
      exact Or.inl ⟨e.1, b, c, h⟩
    · rw [if_neg (by simp [a])] at h
      exact Or.inr ⟨n, b, c, h⟩

/-- C112: in strict mode (threshold at least 1) nothing is corrected: a program is accepted only if each model and field of a declaration and each field of the OUT block is known, and the result is that of the strict
resolver on the program as written. -/
theorem C112_strict (env : Env) (ext : Ext ν κ μ) (th : Thresholds) (hth : 1 ≤ th.main) (specs : List Spec) (names : List Str) (x : Fixed) (o : Output ν κ μ)
    (h : fuzzyCore env ext th specs names x = .ok o) :
    (∀ n l m f, (n, l) ∈ x.lvars → l.ns = some (m, f) → KnownField env specs names m f) ∧
    (∀ n l m f, (n, l) ∈ x.lacts → l.model = some m → m ≠ [] → l.field = some f → KnownField env specs names m f) ∧
    (∀ k ∈ x.out.keys, k ∈ names) ∧ Resolver.resolve ext x.out x.lvars x.lacts specs = .ok o := by
  unfold fuzzyCore at h
  rw [if_pos hth] at h
  split at h
  · next hs =>
    obtain ⟨h1, h2, h3⟩ := strictOk_names hs
    refine ⟨?_, ?_, h3, runStrict_ok h⟩
    · intro n l m f hl hns
      have := h1 (n, l) hl
      unfold strictLvar at this
      rw [hns] at this
      exact strictNs_known this
    · intro n l m f hl hm hne hf
      have := h2 (n, l) hl
      unfold strictLact at this
      rw [hm, hf] at this
      cases m with
      | nil => exact absurd rfl hne
      | cons c cs => exact strictNs_known this
  · cases h

/-! ### C113: exact programs are not changed -/

/-- Identity corrections. -/
def IdDict {α : Type} [DecidableEq α] {β : Type} (f : α → β) (d : Dict α β) : Prop := ∀ k v, d.get? k = some v → v = f k

theorem modelCorr_exact (env : Env) (th : Thresholds) (names : List Str) (sm : Dict Str (Spec × Bool)) (ls : List LvarMeta) (h : ∀ l ∈ ls, strictLvar env names sm l = true) (d : Dict Str Str) (hd : IdDict id d) :
    ∃ mc, modelCorr env th sm ls d = .ok mc ∧ IdDict id mc := by
  induction ls generalizing d with
  | nil => exact ⟨d, rfl, hd⟩
  | cons l ls ih =>
    have hl := h l (by simp)
    have hls := fun k hk => h k (List.mem_cons_of_mem l hk)
    rw [modelCorr]
    unfold modelStep
    unfold strictLvar at hl
    cases hns : l.ns with
    | none => exact ih hls d hd
    | some mf =>
      obtain ⟨m, f⟩ := mf
      rw [hns] at hl
      simp only at hl ⊢
      have hm : m ∈ sm.keys := by
        unfold strictNs at hl
        split at hl
        · cases hl
        · next e he => exact Dict.mem_keys_of_get? he
      rw [correctName_exact hm]
      simp only
      apply ih hls
      intro k v hk
      rw [Dict.get?_set] at hk
      split at hk
      · next e => cases hk; simp_all
      · exact hd k v hk

theorem fieldCorr_exact (env : Env) (th : Thresholds) (names : List Str) (sm : Dict Str (Spec × Bool)) (mc : Dict Str Str) (hmc : IdDict id mc) (ls : List LvarMeta) (h : ∀ l ∈ ls, strictLvar env names sm l = true)
    (d : Dict (Str × Str) Str) (hd : IdDict Prod.snd d) : ∃ fc, fieldCorr env th names sm mc ls d = .ok fc ∧ IdDict Prod.snd fc := by
  induction ls generalizing d with
  | nil => exact ⟨d, rfl, hd⟩
  | cons l ls ih =>
    have hl := h l (by simp)
    have hls := fun k hk => h k (List.mem_cons_of_mem l hk)
    rw [fieldCorr]
    unfold fieldStep
    unfold strictLvar at hl
    cases hns : l.ns with
    | none => exact ih hls d hd
    | some mf =>
      obtain ⟨m, f⟩ := mf
      rw [hns] at hl
      simp only at hl ⊢
      have hm : (mc.get? m).getD m = m := by
        cases hg : mc.get? m with
        | none => rfl
        | some v => exact hmc m v hg
      have hf : f ∈ fieldsFor env names sm m := by
        unfold strictNs at hl
        unfold fieldsFor
        split at hl
        · cases hl
        · next e he => simpa using hl
      rw [hm, correctName_exact hf]
      simp only
      apply ih hls
      intro k v hk
      rw [Dict.get?_set] at hk
      split at hk
      · next e => cases hk; rw [← e]
      · exact hd k v hk

theorem fixLvar_id (mc : Dict Str Str) (fc : Dict (Str × Str) Str) (hm : IdDict id mc) (hf : IdDict Prod.snd fc) (l : LvarMeta) : fixLvar mc fc l = l := by
  unfold fixLvar
  cases l with
  | mk ns value =>
    cases ns with
    | none => rfl
    | some p =>
      obtain ⟨m, f⟩ := p
      have h1 : (mc.get? m).getD m = m := by
        cases hg : mc.get? m with
        | none => rfl
        | some v => exact hm m v hg
      have h2 : (fc.get? (m, f)).getD f = f := by
        cases hg : fc.get? (m, f) with
        | none => rfl
        | some v => exact hf (m, f) v hg
      simp only [h1, h2]

theorem fixLact_id (mc : Dict Str Str) (fc : Dict (Str × Str) Str) (hm : IdDict id mc) (hf : IdDict Prod.snd fc) (l : LactMeta) : fixLact mc fc l = l := by
  have h1 : ∀ m, (mc.get? m).getD m = m := by
    intro m
    cases hg : mc.get? m with
    | none => rfl
    | some v => exact hm m v hg
  have h2 : ∀ m f, (fc.get? (m, f)).getD f = f := by
    intro m f
    cases hg : fc.get? (m, f) with
    | none => rfl
    | some v => exact hf (m, f) v hg
  obtain ⟨mo, fi, c⟩ := l
  cases mo with
  | none => rfl
  | some m =>
    cases m with
    | nil => rfl
    | cons a b =>
      cases fi with
      | none => simp [fixLact, h1]
      | some f => simp [fixLact, h1, h2]

theorem mapVals_id {β : Type} (f : β → β) (hf : ∀ x, f x = x) (d : Dict Str β) : mapVals f d = d := by
  unfold mapVals
  induction d with
  | nil => rfl
  | cons kv d ih => rw [List.map_cons, ih, hf]

theorem fixOut_exact (env : Env) (th : Thresholds) (names : List Str) (l : List (Str × OutVal)) (h : ∀ kv ∈ l, kv.1 ∈ names) (d : Dict Str OutVal) (hwf : (Dict.keys (d ++ l)).Nodup) :
    fixOut env th names l d = .ok (d ++ l) := by
  induction l generalizing d with
  | nil => simp [fixOut]
  | cons kv l ih =>
    obtain ⟨k, v⟩ := kv
    rw [fixOut, correctName_exact (h (k, v) (by simp))]
    simp only
    have hk : k ∉ d.keys := by
      intro hin
      rw [Dict.keys_append, List.nodup_append] at hwf
      exact hwf.2.2 k hin k (by simp) rfl
    rw [Dict.set_of_notMem v hk, ih (fun kv hkv => h kv (List.mem_cons_of_mem _ hkv)) _ (by simpa using hwf)]
    simp

theorem fixRefs_exact (env : Env) (th : Thresholds) (avail : List Str) (ns : List Str) (h : ∀ n ∈ ns, n ∈ avail) : fixRefs env th avail ns = .ok ns := by
  induction ns with
  | nil => rfl
  | cons n ns ih =>
    rw [fixRefs, correctName_exact (h n (by simp))]
    simp only
    rw [ih (fun k hk => h k (List.mem_cons_of_mem _ hk))]

theorem fixVals_exact (env : Env) (th : Thresholds) (avail : List Str) (l : List (Str × OutVal)) (h : ∀ f ns, (f, OutVal.refs ns) ∈ l → ∀ n ∈ ns, n ∈ avail) : fixVals env th avail l = .ok l := by
  induction l with
  | nil => rfl
  | cons kv l ih =>
    obtain ⟨k, v⟩ := kv
    rw [fixVals]
    have hv : fixVal env th avail v = .ok v := by
      unfold fixVal
      cases v with
      | refs ns => simp only; rw [fixRefs_exact env th avail ns (h k ns (by simp))]
      | str => rfl
      | num => rfl
      | bool => rfl
    rw [hv]
    simp only
    rw [ih (fun f ns hf => h f ns (List.mem_cons_of_mem _ hf))]

/-- C113: a program accepted in strict mode has the same result with any thresholds: fuzzy matching never changes a correct program. -/
theorem C113_exact_unchanged (env : Env) (ext : Ext ν κ μ) (th th' : Thresholds) (hth : 1 ≤ th.main) (specs : List Spec) (names : List Str) (x : Fixed) (hx : x.out.WF) (o : Output ν κ μ)
    (h : fuzzyCore env ext th specs names x = .ok o) : fuzzyCore env ext th' specs names x = .ok o := by
  unfold fuzzyCore at h ⊢
  rw [if_pos hth] at h
  split at h
  · next hs =>
    by_cases hth' : 1 ≤ th'.main
    · rw [if_pos hth', if_pos hs]; exact h
    · rw [if_neg hth']
      obtain ⟨h1, h2, h3⟩ := strictOk_names hs
      have hr := runStrict_ok h
      have hdecl := (Resolver.C50_sound ext x.out hx x.lvars x.lacts specs o hr).2.2.2.1
      have hls : ∀ l ∈ x.lvars.map Prod.snd, strictLvar env names (specMap env.opName specs) l = true := by
        intro l hl
        obtain ⟨kv, hkv, rfl⟩ := List.mem_map.1 hl
        exact h1 kv hkv
      obtain ⟨mc, e1, hmc⟩ := modelCorr_exact env th' names (specMap env.opName specs) _ hls [] (by intro k v hk; cases hk)
      obtain ⟨fc, e2, hfc⟩ := fieldCorr_exact env th' names (specMap env.opName specs) mc hmc _ hls [] (by intro k v hk; cases hk)
      have e3 : fixOut env th' names x.out [] = .ok x.out := by
        rw [fixOut_exact env th' names x.out (fun kv hkv => h3 kv.1 (List.mem_map.2 ⟨kv, hkv, rfl⟩)) [] hx]
        rfl
      have e4 : fixVals env th' (x.lvars.keys ++ x.lacts.keys) x.out = .ok x.out :=
        fixVals_exact env th' _ x.out (fun f ns hf n hn => List.mem_append.2 (hdecl f ns hf n hn))
      have e5 : correctAll env th' names (specMap env.opName specs) x.out x.lvars x.lacts = .ok x := by
        unfold correctAll
        rw [e1]
        simp only
        rw [e2]
        simp only
        rw [mapVals_id _ (fixLvar_id mc fc hmc hfc), mapVals_id _ (fixLact_id mc fc hmc hfc)]
        unfold correctOut
        rw [e3]
        simp only
        rw [e4]
      rw [e5]
      exact h
  · cases h

/-! ### C109: actions for fields that do not exist -/

def modelSpec : Spec := ⟨some ['r'], .model ['R'], true, 0⟩

def strictTh : Thresholds := ⟨1, 1, 1, 1, 1⟩

def badField : Fixed := ⟨[(['r'], .refs [['c']])], [], [(['c'], ⟨some ['R'], some "nope".toList, ['f']⟩)]⟩

/-- C109 fails in fuzzy mode: an action for a field the model does not have is neither corrected nor rejected. -/
theorem C109_unknown_field_violation :
    fuzzyCore (jwEnv [modelSpec] [['x']]) Resolver.demoExt (mkThresholds (85 / 100) none none none none) [modelSpec] [['r']] badField =
      .ok ⟨[(['r'], .inst [("nope".toList, .action ⟨['c'], ['f'], ['f']⟩)])], [(['c'], ⟨['c'], ['f'], ['f']⟩)]⟩ := by decide +kernel

/-- C109 in strict mode: every action of an accepted program is for a field its model has. -/
theorem C109_strict_partial (env : Env) (ext : Ext ν κ μ) (th : Thresholds) (hth : 1 ≤ th.main) (specs : List Spec) (names : List Str) (x : Fixed) (o : Output ν κ μ)
    (h : fuzzyCore env ext th specs names x = .ok o) (n : Str) (l : LactMeta) (m f : Str) (hl : (n, l) ∈ x.lacts) (hm : l.model = some m) (hne : m ≠ []) (hf : l.field = some f) :
    KnownField env specs names m f := (C112_strict env ext th hth specs names x o h).2.1 n l m f hl hm hne hf

/-- Non-vacuity: accepted and rejected in strict mode. -/
example : fuzzyCore (jwEnv [modelSpec] [['x']]) Resolver.demoExt strictTh [modelSpec] [['r']] badField = .error .missing := by decide +kernel
example : fuzzyCore (jwEnv [modelSpec] [['x']]) Resolver.demoExt strictTh [modelSpec] [['r']] ⟨[(['r'], .refs [['c']])], [], [(['c'], ⟨some ['R'], some ['x'], ['f']⟩)]⟩ =
    .ok ⟨[(['r'], .inst [(['x'], .action ⟨['c'], ['f'], ['f']⟩)])], [(['c'], ⟨['c'], ['f'], ['f']⟩)]⟩ := by decide +kernel

/-- A string longer than all of a list is not in it. -/
theorem fresh_name (l : List Str) : ∃ f : Str, f ∉ l := by
  have key : ∃ n, ∀ x ∈ l, x.length ≤ n := by
    induction l with
    | nil => exact ⟨0, fun x hx => by cases hx⟩
    | cons y l ih =>
      obtain ⟨n, hn⟩ := ih
      refine ⟨n + y.length, fun x hx => ?_⟩
      rcases List.mem_cons.1 hx with rfl | hx
      · omega
      · have := hn x hx; omega
  obtain ⟨n, hn⟩ := key
  refine ⟨List.replicate (n + 1) 'a', fun h => ?_⟩
  have := hn _ h
  rw [List.length_replicate] at this
  omega

/-- C109, exactly: for an operable without required fields, and every model name, the guarantee holds if and only if the mode is strict - in fuzzy mode, whatever the thresholds,
an action for a field which the model does not have is accepted. -/
theorem C109_exact_partial (env : Env) (ext : Ext ν κ μ) (th : Thresholds) (specs : List Spec) (names : List Str) (hopt : ∀ s ∈ specs, s.required = false) (m : Str) (hne : m ≠ []) :
    (∀ (x : Fixed) (o : Output ν κ μ) (n : Str) (l : LactMeta) (f : Str), fuzzyCore env ext th specs names x = .ok o → (n, l) ∈ x.lacts → l.model = some m → l.field = some f →
      KnownField env specs names m f) ↔ 1 ≤ th.main := by
  refine ⟨fun h => ?_, fun hth x o n l f h hl hm hf => C109_strict_partial env ext th hth specs names x o h n l m f hl hm hne hf⟩
  apply Decidable.byContradiction
  intro hth
  obtain ⟨f, hf⟩ := fresh_name (specs.flatMap (fun s => env.modelFields s) ++ names)
  have hacc : fuzzyCore env ext th specs names ⟨[], [], [(['c'], ⟨some m, some f, ['g']⟩)]⟩ = .ok ⟨[], []⟩ := by
    have hany : specs.any (Resolver.missingSpec []) = false := by
      rw [List.any_eq_false]
      intro s hs
      rw [Resolver.missingSpec, hopt s hs]
      exact Bool.false_ne_true
    have hal : Operable.checkAllowed Spec.name specs (Dict.keys ([] : Dict Str OutVal)) ≠ false := by
      simp [Operable.checkAllowed, Dict.keys]
    simp only [fuzzyCore, if_neg hth, correctAll, correctOut, List.map_nil, modelCorr, fieldCorr, fixOut, fixVals, runStrict, mapVals, Resolver.resolve, Dict.keys, List.any_nil,
      Bool.false_eq_true, if_false]
    rw [if_neg (by simpa [Dict.keys] using hal), if_neg (by rw [hany]; exact Bool.false_ne_true)]
    rfl
  rcases h _ _ ['c'] ⟨some m, some f, ['g']⟩ f hacc (List.mem_singleton.2 rfl) rfl rfl with ⟨s, hs, _, hk⟩ | ⟨n, _, _, hk⟩
  · exact hf (List.mem_append_left _ (List.mem_flatMap.2 ⟨s, hs, hk⟩))
  · exact hf (List.mem_append_right _ hk)

/-- Non-vacuity: an operable without required fields, read in fuzzy and in strict mode. -/
example : fuzzyCore (jwEnv [⟨some ['r'], .model ['R'], false, 0⟩] [['x']]) Resolver.demoExt (mkThresholds (85 / 100) none none none none) [⟨some ['r'], .model ['R'], false, 0⟩] [['r']]
    ⟨[], [], [(['c'], ⟨some ['R'], some "nope".toList, ['f']⟩)]⟩ = .ok ⟨[], []⟩ := by decide +kernel
example : fuzzyCore (jwEnv [⟨some ['r'], .model ['R'], false, 0⟩] [['x']]) Resolver.demoExt strictTh [⟨some ['r'], .model ['R'], false, 0⟩] [['r']]
    ⟨[], [], [(['c'], ⟨some ['R'], some "nope".toList, ['f']⟩)]⟩ = .error .missing := by decide +kernel

end Verif.Fuzzy
