import Verif.Model.CreatePathConc

/-!
# C329, C330: concurrent calls of `acreate_path`
-/

set_option linter.unusedSectionVars false
set_option linter.unusedSimpArgs false
set_option linter.unusedVariables false

namespace Verif.CreatePathConc

/-! ## Lemmas -/

theorem run_append (calls : Nat → Call) (s : Sys) (a b : List Op) : run calls s (a ++ b) = run calls (run calls s a) b := List.foldl_append

theorem run_snoc (calls : Nat → Call) (s : Sys) (a : List Op) (o : Op) : run calls s (a ++ [o]) = step calls (run calls s a) o := by
  rw [run_append]; rfl

theorem snoc_induction {P : List Op → Prop} (h0 : P []) (h1 : ∀ a o, P a → P (a ++ [o])) : ∀ l, P l := by
  intro l
  have : ∀ n (l : List Op), l.length = n → P l := by
    intro n
    induction n with
    | zero => intro l hl; rw [List.length_eq_zero_iff.1 hl]; exact h0
    | succ n ih =>
      intro l hl
      have hne : l ≠ [] := by intro e; rw [e] at hl; cases hl
      rw [← List.dropLast_concat_getLast hne]
      exact h1 _ _ (ih _ (by simp [hl]))
  exact this _ l rfl

theorem upd_same (g : Nat → Phase) (k : Nat) (p : Phase) : upd g k p k = p := by simp [upd]

theorem upd_other (g : Nat → Phase) {k i : Nat} (p : Phase) (h : i ≠ k) : upd g k p i = g i := by simp [upd, h]

/-- The call has got past making its directory. -/
def Past : Phase → Prop
  | .made => True
  | .asked _ => True
  | .returned => True
  | _ => False

theorem resume_cases (c : Call) (i : Nat) (s : Sys) : (∃ b, s.phase i = .asked b ∧ resume c i s (s.phase i) = { s with phase := upd s.phase i (conclude c b) }) ∨
    ((∀ b, s.phase i ≠ .asked b) ∧ resume c i s (s.phase i) = s) := by
  cases h : s.phase i with
  | asked b => exact .inl ⟨b, rfl, rfl⟩
  | begun => exact .inr ⟨fun b e => (by cases e), rfl⟩
  | made => exact .inr ⟨fun b e => (by cases e), rfl⟩
  | returned => exact .inr ⟨fun b e => (by cases e), rfl⟩
  | raised => exact .inr ⟨fun b e => (by cases e), rfl⟩

theorem step_dirs (calls : Nat → Call) (s : Sys) (o : Op) {d : Nat} (h : d ∈ s.dirs) : d ∈ (step calls s o).dirs := by
  cases o with
  | mkdir i =>
    simp only [step]
    by_cases h1 : s.phase i = .begun
    · rw [if_pos h1]
      unfold mkdir
      by_cases h2 : (calls i).dir ∈ s.dirs
      · rw [if_pos h2]
        by_cases h3 : (calls i).dirOk = true
        · rw [if_pos h3]; exact h
        · rw [if_neg h3]; exact h
      · rw [if_neg h2]; exact List.mem_cons_of_mem _ h
    · rw [if_neg h1]; exact h
  | ask i =>
    simp only [step]
    by_cases h1 : s.phase i = .made
    · rw [if_pos h1]; exact h
    · rw [if_neg h1]; exact h
  | resume i =>
    simp only [step]
    rcases resume_cases (calls i) i s with ⟨b, _, e⟩ | ⟨_, e⟩
    · rw [e]; exact h
    · rw [e]; exact h
  | create p => exact h
  | delete p => exact h
  | otherDir d' => exact List.mem_cons_of_mem _ h

/-- A call that has not begun or was refused gets past making its directory only by making it. -/
theorem step_past (calls : Nat → Call) (s : Sys) (o : Op) (i : Nat) (h : Past ((step calls s o).phase i)) :
    Past (s.phase i) ∨ (o = .mkdir i ∧ s.phase i = .begun ∧ ((calls i).dir ∉ s.dirs ∨ (calls i).dirOk = true) ∧ (calls i).dir ∈ (step calls s o).dirs) := by
  cases o with
  | mkdir j =>
    simp only [step] at h ⊢
    by_cases h1 : s.phase j = .begun
    · rw [if_pos h1] at h ⊢
      by_cases hij : i = j
      · subst hij
        right
        unfold mkdir at h ⊢
        by_cases h2 : (calls i).dir ∈ s.dirs
        · rw [if_pos h2] at h ⊢
          by_cases h3 : (calls i).dirOk = true
          · rw [if_pos h3]; exact ⟨rfl, h1, .inr h3, h2⟩
          · rw [if_neg h3] at h
            simp only [upd_same] at h
            exact h.elim
        · rw [if_neg h2]; exact ⟨rfl, h1, .inl h2, List.mem_cons_self⟩
      · left
        unfold mkdir at h
        by_cases h2 : (calls j).dir ∈ s.dirs
        · rw [if_pos h2] at h
          by_cases h3 : (calls j).dirOk = true
          · rw [if_pos h3] at h; simp only [upd_other _ _ hij] at h; exact h
          · rw [if_neg h3] at h; simp only [upd_other _ _ hij] at h; exact h
        · rw [if_neg h2] at h; simp only [upd_other _ _ hij] at h; exact h
    · rw [if_neg h1] at h; exact .inl h
  | ask j =>
    left
    simp only [step] at h
    by_cases h1 : s.phase j = .made
    · by_cases hij : i = j
      · rw [hij, h1]; trivial
      · rw [if_pos h1] at h; simp only [upd_other _ _ hij] at h; exact h
    · rw [if_neg h1] at h; exact h
  | resume j =>
    left
    simp only [step] at h
    rcases resume_cases (calls j) j s with ⟨b, hb, e⟩ | ⟨_, e⟩
    · by_cases hij : i = j
      · rw [hij, hb]; trivial
      · rw [e] at h; simp only [upd_other _ _ hij] at h; exact h
    · rw [e] at h; exact h
  | create p => exact .inl h
  | delete p => exact .inl h
  | otherDir d => exact .inl h

theorem past_dir (calls : Nat → Call) (s0 : Sys) (h0 : ∀ i, s0.phase i = .begun) (h : List Op) : ∀ i, Past ((run calls s0 h).phase i) → (calls i).dir ∈ (run calls s0 h).dirs := by
  induction h using snoc_induction with
  | h0 => intro i hp; simp only [run, List.foldl_nil] at hp; rw [h0 i] at hp; exact hp.elim
  | h1 a o ih =>
    intro i hp
    rw [run_snoc] at hp ⊢
    rcases step_past calls _ o i hp with h1 | ⟨_, _, _, h1⟩
    · exact step_dirs calls _ o (ih i h1)
    · exact h1

/-! ## C330 -/

/-- **C330.**  Of all calls with `dir_exist_ok=False` for one directory at most one returns, however the calls and other programs interleave; and none does if the directory was there before. -/
theorem C330_one (calls : Nat → Call) (s0 : Sys) (h0 : ∀ i, s0.phase i = .begun) (h : List Op) (i j : Nat) (hd : (calls i).dir = (calls j).dir) (hi : (calls i).dirOk = false)
    (hj : (calls j).dirOk = false) (ri : (run calls s0 h).phase i = .returned) (rj : (run calls s0 h).phase j = .returned) : i = j ∧ (calls i).dir ∉ s0.dirs := by
  have key : ∀ h : List Op, (∀ i j, (calls i).dir = (calls j).dir → (calls i).dirOk = false → (calls j).dirOk = false → Past ((run calls s0 h).phase i) → Past ((run calls s0 h).phase j) → i = j) ∧
      ∀ i, (calls i).dirOk = false → Past ((run calls s0 h).phase i) → (calls i).dir ∉ s0.dirs := by
    intro h
    have mono : ∀ l d, d ∈ s0.dirs → d ∈ (run calls s0 l).dirs := by
      intro l
      induction l using snoc_induction with
      | h0 => intro d hd; exact hd
      | h1 a o ih => intro d hd; rw [run_snoc]; exact step_dirs calls _ o (ih d hd)
    induction h using snoc_induction with
    | h0 =>
      refine ⟨fun i j _ _ _ hp _ => ?_, fun i _ hp => ?_⟩
      · simp only [run, List.foldl_nil] at hp; rw [h0 i] at hp; exact hp.elim
      · simp only [run, List.foldl_nil] at hp; rw [h0 i] at hp; exact hp.elim
    | h1 a o ih =>
      obtain ⟨ih1, ih2⟩ := ih
      have pd := past_dir calls s0 h0 a
      refine ⟨fun i j hd hi hj pi pj => ?_, fun i hi pi => ?_⟩
      · rw [run_snoc] at pi pj
        rcases step_past calls _ o i pi with pi | ⟨e1, _, n1, _⟩
        · rcases step_past calls _ o j pj with pj | ⟨e2, _, n2, _⟩
          · exact ih1 i j hd hi hj pi pj
          · exfalso
            rcases n2 with n2 | n2
            · exact n2 (hd ▸ pd i pi)
            · rw [hj] at n2; cases n2
        · rcases step_past calls _ o j pj with pj | ⟨e2, _, n2, _⟩
          · exfalso
            rcases n1 with n1 | n1
            · exact n1 (hd ▸ pd j pj)
            · rw [hi] at n1; cases n1
          · rw [e1] at e2
            injection e2
      · rw [run_snoc] at pi
        rcases step_past calls _ o i pi with pi | ⟨e1, _, n1, _⟩
        · exact ih2 i hi pi
        · rcases n1 with n1 | n1
          · intro hx; exact n1 (mono a _ hx)
          · rw [hi] at n1; cases n1
  obtain ⟨k1, k2⟩ := key h
  exact ⟨k1 i j hd hi hj (by rw [ri]; trivial) (by rw [rj]; trivial), k2 i hi (by rw [ri]; trivial)⟩

theorem step_keep (calls : Nat → Call) (s : Sys) (o : Op) (i : Nat) (hf : (calls i).fileOk = true) (h : Past (s.phase i)) : Past ((step calls s o).phase i) := by
  cases o with
  | mkdir j =>
    simp only [step]
    by_cases h1 : s.phase j = .begun
    · rw [if_pos h1]
      have hij : i ≠ j := by intro e; rw [e, h1] at h; exact h
      unfold mkdir
      by_cases h2 : (calls j).dir ∈ s.dirs
      · rw [if_pos h2]
        by_cases h3 : (calls j).dirOk = true
        · rw [if_pos h3]; simp only [upd_other _ _ hij]; exact h
        · rw [if_neg h3]; simp only [upd_other _ _ hij]; exact h
      · rw [if_neg h2]; simp only [upd_other _ _ hij]; exact h
    · rw [if_neg h1]; exact h
  | ask j =>
    simp only [step]
    by_cases h1 : s.phase j = .made
    · rw [if_pos h1]
      by_cases hij : i = j
      · subst hij; simp only [upd_same]; trivial
      · simp only [upd_other _ _ hij]; exact h
    · rw [if_neg h1]; exact h
  | resume j =>
    simp only [step]
    rcases resume_cases (calls j) j s with ⟨b, hb, e⟩ | ⟨_, e⟩
    · rw [e]
      by_cases hij : i = j
      · subst hij; simp only [upd_same, conclude, hf, Bool.not_true, Bool.and_false, Bool.false_eq_true, if_false]; trivial
      · simp only [upd_other _ _ hij]; exact h
    · rw [e]; exact h
  | create p => exact h
  | delete p => exact h
  | otherDir d => exact h

/-- A directory that appears in a step is made by another program or by a call that gets past making it. -/
theorem step_new (calls : Nat → Call) (s : Sys) (o : Op) (d : Nat) (h : d ∈ (step calls s o).dirs) :
    d ∈ s.dirs ∨ o = .otherDir d ∨ ∃ i, (calls i).dir = d ∧ Past ((step calls s o).phase i) := by
  cases o with
  | mkdir j =>
    simp only [step] at h ⊢
    by_cases h1 : s.phase j = .begun
    · rw [if_pos h1] at h ⊢
      unfold mkdir at h ⊢
      by_cases h2 : (calls j).dir ∈ s.dirs
      · rw [if_pos h2] at h
        by_cases h3 : (calls j).dirOk = true
        · rw [if_pos h3] at h; exact .inl h
        · rw [if_neg h3] at h; exact .inl h
      · rw [if_neg h2] at h ⊢
        rcases List.mem_cons.1 h with e | e
        · exact .inr (.inr ⟨j, e.symm, by simp only [upd_same]; trivial⟩)
        · exact .inl e
    · rw [if_neg h1] at h; exact .inl h
  | ask j =>
    simp only [step] at h
    by_cases h1 : s.phase j = .made
    · rw [if_pos h1] at h; exact .inl h
    · rw [if_neg h1] at h; exact .inl h
  | resume j =>
    simp only [step] at h
    rcases resume_cases (calls j) j s with ⟨b, hb, e⟩ | ⟨_, e⟩
    · rw [e] at h; exact .inl h
    · rw [e] at h; exact .inl h
  | create p => exact .inl h
  | delete p => exact .inl h
  | otherDir d' =>
    rcases List.mem_cons.1 h with e | e
    · exact .inr (.inl (by rw [e]))
    · exact .inl e

/-- A call leaves its first point only when its directory is there. -/
theorem step_left (calls : Nat → Call) (s : Sys) (o : Op) (i : Nat) (hb : s.phase i = .begun) (h : (step calls s o).phase i ≠ .begun) : (calls i).dir ∈ (step calls s o).dirs := by
  cases o with
  | mkdir j =>
    by_cases hij : i = j
    · subst hij
      simp only [step, if_pos hb, mkdir]
      by_cases h2 : (calls i).dir ∈ s.dirs
      · rw [if_pos h2]
        by_cases h3 : (calls i).dirOk = true
        · rw [if_pos h3]; exact h2
        · rw [if_neg h3]; exact h2
      · rw [if_neg h2]; exact List.mem_cons_self
    · exfalso
      apply h
      simp only [step]
      by_cases h1 : s.phase j = .begun
      · rw [if_pos h1]
        unfold mkdir
        by_cases h2 : (calls j).dir ∈ s.dirs
        · rw [if_pos h2]
          by_cases h3 : (calls j).dirOk = true
          · rw [if_pos h3]; simp only [upd_other _ _ hij]; exact hb
          · rw [if_neg h3]; simp only [upd_other _ _ hij]; exact hb
        · rw [if_neg h2]; simp only [upd_other _ _ hij]; exact hb
      · rw [if_neg h1]; exact hb
  | ask j =>
    exfalso
    apply h
    simp only [step]
    by_cases h1 : s.phase j = .made
    · have hij : i ≠ j := by intro e; rw [e, h1] at hb; cases hb
      rw [if_pos h1]; simp only [upd_other _ _ hij]; exact hb
    · rw [if_neg h1]; exact hb
  | resume j =>
    exfalso
    apply h
    simp only [step]
    rcases resume_cases (calls j) j s with ⟨b, hx, e⟩ | ⟨_, e⟩
    · have hij : i ≠ j := by intro e; rw [e, hx] at hb; cases hb
      rw [e]; simp only [upd_other _ _ hij]; exact hb
    · rw [e]; exact hb
  | create p => exact absurd hb h
  | delete p => exact absurd hb h
  | otherDir d => exact absurd hb h

/-- **C330**, the other half: if the directory was not there, no other program makes it and existing files do not matter (`file_exist_ok=True`), then as soon as one of the calls for it has been refused, another one
has been given the directory: the calls never all fail. -/
theorem C330_some (calls : Nat → Call) (s0 : Sys) (h0 : ∀ i, s0.phase i = .begun) (h : List Op) (i : Nat) (hf : ∀ j, (calls j).fileOk = true) (hd : (calls i).dir ∉ s0.dirs)
    (ho : .otherDir (calls i).dir ∉ h) (hr : (run calls s0 h).phase i = .raised) :
    ∃ j, j ≠ i ∧ (calls j).dir = (calls i).dir ∧ ((run calls s0 h).phase j = .made ∨ (∃ b, (run calls s0 h).phase j = .asked b) ∨ (run calls s0 h).phase j = .returned) := by
  have key : ∀ h : List Op, .otherDir (calls i).dir ∉ h → ((calls i).dir ∈ (run calls s0 h).dirs → ∃ j, (calls j).dir = (calls i).dir ∧ Past ((run calls s0 h).phase j)) ∧
      ((run calls s0 h).phase i ≠ .begun → (calls i).dir ∈ (run calls s0 h).dirs) := by
    intro h
    induction h using snoc_induction with
    | h0 => intro _; exact ⟨fun x => absurd x hd, fun x => absurd (h0 i) x⟩
    | h1 a o ih =>
      intro hn
      have hna : .otherDir (calls i).dir ∉ a := fun m => hn (List.mem_append_left _ m)
      have hno : o ≠ .otherDir (calls i).dir := fun e => hn (by rw [e]; simp)
      obtain ⟨ih1, ih2⟩ := ih hna
      rw [run_snoc]
      refine ⟨fun hm => ?_, fun hp => ?_⟩
      · rcases step_new calls _ o _ hm with hm | hm | hm
        · obtain ⟨j, hj, hp⟩ := ih1 hm
          exact ⟨j, hj, step_keep calls _ o j (hf j) hp⟩
        · exact absurd hm hno
        · exact hm
      · by_cases hb : (run calls s0 a).phase i = .begun
        · exact step_left calls _ o i hb hp
        · exact step_dirs calls _ o (ih2 hb)
  obtain ⟨k1, k2⟩ := key h ho
  obtain ⟨j, hj, hp⟩ := k1 (k2 (by rw [hr]; intro e; cases e))
  refine ⟨j, ?_, hj, ?_⟩
  · intro e; rw [e, hr] at hp; exact hp
  · cases hx : (run calls s0 h).phase j with
    | made => exact .inl rfl
    | asked b => exact .inr (.inl ⟨b, rfl⟩)
    | returned => exact .inr (.inr rfl)
    | begun => rw [hx] at hp; exact hp.elim
    | raised => rw [hx] at hp; exact hp.elim

/-- Calls of the examples: the same path. -/
def exCalls (ok : Bool) : Nat → Call := fun _ => ⟨7, 1, ok, false⟩

example : (run (exCalls false) {} [.mkdir 0, .mkdir 1, .ask 0, .resume 0]).phase 0 = .returned ∧ (run (exCalls false) {} [.mkdir 0, .mkdir 1, .ask 0, .resume 0]).phase 1 = .raised := by decide

/-- Two calls with `file_exist_ok=True` for one directory: the second is refused, the first has it. -/
example : (run (fun _ => ⟨7, 1, false, true⟩) {} [.mkdir 0, .mkdir 1]).phase 1 = .raised ∧ (run (fun _ => ⟨7, 1, false, true⟩) {} [.mkdir 0, .mkdir 1]).phase 0 = .made := by decide

/-! ## C329 -/

/-- **C329 fails**: with `file_exist_ok=False` a call returns a path at which a file was created after it had asked; and two calls return the same path, even if each program creates its file at once. -/
theorem C329_violation :
    ((run (exCalls true) {} [.mkdir 0, .ask 0, .create 7, .resume 0]).phase 0 = .returned ∧ 7 ∈ (run (exCalls true) {} [.mkdir 0, .ask 0, .create 7, .resume 0]).files) ∧
    ((run (exCalls true) {} [.mkdir 0, .mkdir 1, .ask 0, .ask 1, .resume 0, .create 7, .resume 1]).phase 0 = .returned ∧
      (run (exCalls true) {} [.mkdir 0, .mkdir 1, .ask 0, .ask 1, .resume 0, .create 7, .resume 1]).phase 1 = .returned) := by decide

theorem asked_split (calls : Nat → Call) (s0 : Sys) (h0 : ∀ i, s0.phase i = .begun) (i : Nat) (h : List Op) : ∀ b, (run calls s0 h).phase i = .asked b →
    ∃ a c, h = a ++ .ask i :: c ∧ (b = true ↔ (calls i).path ∈ (run calls s0 a).files) := by
  induction h using snoc_induction with
  | h0 => intro b hb; simp only [run, List.foldl_nil] at hb; rw [h0 i] at hb; cases hb
  | h1 l o ih =>
    intro b hb
    rw [run_snoc] at hb
    have ext : (run calls s0 l).phase i = .asked b → ∃ a c, l ++ [o] = a ++ .ask i :: c ∧ (b = true ↔ (calls i).path ∈ (run calls s0 a).files) := by
      intro hx
      obtain ⟨a, c, e, f⟩ := ih b hx
      exact ⟨a, c ++ [o], by rw [e]; simp, f⟩
    cases o with
    | mkdir j =>
      simp only [step] at hb
      by_cases h1 : (run calls s0 l).phase j = .begun
      · rw [if_pos h1] at hb
        unfold mkdir at hb
        by_cases hij : i = j
        · subst hij
          exfalso
          split at hb
          · split at hb
            · simp only [upd_same] at hb; cases hb
            · simp only [upd_same] at hb; cases hb
          · simp only [upd_same] at hb; cases hb
        · apply ext
          split at hb
          · split at hb
            · simp only [upd_other _ _ hij] at hb; exact hb
            · simp only [upd_other _ _ hij] at hb; exact hb
          · simp only [upd_other _ _ hij] at hb; exact hb
      · rw [if_neg h1] at hb; exact ext hb
    | ask j =>
      simp only [step] at hb
      by_cases h1 : (run calls s0 l).phase j = .made
      · rw [if_pos h1] at hb
        by_cases hij : i = j
        · subst hij
          simp only [upd_same] at hb
          injection hb with hb
          exact ⟨l, [], rfl, by rw [← hb]; simp⟩
        · simp only [upd_other _ _ hij] at hb; exact ext hb
      · rw [if_neg h1] at hb; exact ext hb
    | resume j =>
      simp only [step] at hb
      rcases resume_cases (calls j) j (run calls s0 l) with ⟨b', hb', e⟩ | ⟨_, e⟩
      · rw [e] at hb
        by_cases hij : i = j
        · subst hij
          simp only [upd_same, conclude] at hb
          split at hb <;> cases hb
        · simp only [upd_other _ _ hij] at hb; exact ext hb
      · rw [e] at hb; exact ext hb
    | create p => exact ext hb
    | delete p => exact ext hb
    | otherDir d => exact ext hb

/-- **C329** (partial; missing: files created between the question and the end of the call, see `C329_violation`).  The step with which a call ends follows a moment during the call at which it looked: with
`file_exist_ok=False` the call returns exactly if there was no file at its path at that moment, and raises `FileExistsError` otherwise; with `file_exist_ok=True` it always returns. -/
theorem C329_looked_partial (calls : Nat → Call) (s0 : Sys) (h0 : ∀ i, s0.phase i = .begun) (i : Nat) (h : List Op) (b : Bool) (hb : (run calls s0 h).phase i = .asked b) :
    ∃ a c, h = a ++ .ask i :: c ∧
      ((run calls s0 (h ++ [.resume i])).phase i = .returned ↔ (calls i).fileOk = true ∨ (calls i).path ∉ (run calls s0 a).files) ∧
      ((run calls s0 (h ++ [.resume i])).phase i = .raised ↔ (calls i).fileOk = false ∧ (calls i).path ∈ (run calls s0 a).files) := by
  obtain ⟨a, c, e, f⟩ := asked_split calls s0 h0 i h b hb
  refine ⟨a, c, e, ?_⟩
  rw [run_snoc]
  simp only [step, hb, resume, upd_same, conclude]
  by_cases hf : (calls i).path ∈ (run calls s0 a).files
  · rw [f.2 hf]
    cases (calls i).fileOk <;> simp [hf]
  · have : b = false := by
      cases b with
      | false => rfl
      | true => exact absurd (f.1 rfl) hf
    rw [this]
    cases (calls i).fileOk <;> simp [hf]

theorem keep_free (calls : Nat → Call) (p : Nat) : ∀ (c : List Op) (s : Sys), p ∉ s.files → .create p ∉ c → p ∉ (run calls s c).files
  | [], s, hp, _ => hp
  | o :: c, s, hp, hc => by
    have hstep : p ∉ (step calls s o).files := by
      cases o with
      | mkdir j =>
        simp only [step, mkdir]
        repeat' split
        all_goals exact hp
      | ask j =>
        simp only [step]
        split
        all_goals exact hp
      | resume j =>
        simp only [step]
        rcases resume_cases (calls j) j s with ⟨b, _, e⟩ | ⟨_, e⟩
        · rw [e]; exact hp
        · rw [e]; exact hp
      | create q =>
        simp only [step, List.mem_cons, not_or]
        refine ⟨?_, hp⟩
        intro e
        exact hc (by rw [e]; simp)
      | delete q =>
        simp only [step, List.mem_filter]
        exact fun x => hp x.1
      | otherDir d => exact hp
    exact keep_free calls p c _ hstep (fun m => hc (List.mem_cons_of_mem _ m))

/-- **C329** (partial).  If nothing creates the file after the call has looked, a path returned with `file_exist_ok=False` is free when the call returns. -/
theorem C329_free_partial (calls : Nat → Call) (s0 : Sys) (i : Nat) (a c : List Op) (hf : (calls i).path ∉ (run calls s0 a).files) (hc : .create (calls i).path ∉ c) :
    (calls i).path ∉ (run calls s0 (a ++ .ask i :: c ++ [.resume i])).files := by
  have : a ++ Op.ask i :: c ++ [.resume i] = a ++ (.ask i :: c ++ [.resume i]) := by simp
  rw [this, run_append]
  refine keep_free calls _ _ _ hf ?_
  simp [hc]

theorem step_files (calls : Nat → Call) (s : Sys) (o : Op) (p : Nat) : p ∈ (step calls s o).files ↔ o = .create p ∨ (p ∈ s.files ∧ o ≠ .delete p) := by
  cases o with
  | mkdir j =>
    have : (step calls s (.mkdir j)).files = s.files := by
      simp only [step, mkdir]
      repeat' split
      all_goals rfl
    rw [this]; simp
  | ask j =>
    have : (step calls s (.ask j)).files = s.files := by
      simp only [step]
      split
      all_goals rfl
    rw [this]; simp
  | resume j =>
    have : (step calls s (.resume j)).files = s.files := by
      simp only [step]
      rcases resume_cases (calls j) j s with ⟨b, _, e⟩ | ⟨_, e⟩
      · rw [e]
      · rw [e]
    rw [this]; simp
  | create q =>
    simp only [step, List.mem_cons, Op.create.injEq, ne_eq, reduceCtorEq, not_false_eq_true, and_true]
    exact ⟨fun h => h.imp Eq.symm id, fun h => h.imp Eq.symm id⟩
  | delete q =>
    simp only [step, List.mem_filter, Op.delete.injEq, ne_eq, reduceCtorEq, false_or, Bool.not_eq_true', decide_eq_false_iff_not]
    exact ⟨fun h => ⟨h.1, fun e => h.2 e.symm⟩, fun h => ⟨h.1, fun e => h.2 e.symm⟩⟩
  | otherDir d => simp [step]

theorem run_files (calls : Nat → Call) (s : Sys) (p : Nat) (c : List Op) :
    p ∈ (run calls s c).files ↔ (∃ c1 c2, c = c1 ++ .create p :: c2 ∧ .delete p ∉ c2) ∨ (p ∈ s.files ∧ .delete p ∉ c) := by
  induction c using snoc_induction with
  | h0 => simp [run]
  | h1 a o ih =>
    rw [run_snoc, step_files, ih]
    constructor
    · rintro (rfl | ⟨⟨c1, c2, e, hn⟩ | ⟨hp, hn⟩, ho⟩)
      · exact .inl ⟨a, [], rfl, by simp⟩
      · exact .inl ⟨c1, c2 ++ [o], by rw [e]; simp, by simp [hn, Ne.symm ho]⟩
      · exact .inr ⟨hp, by simp [hn, Ne.symm ho]⟩
    · rintro (⟨c1, c2, e, hn⟩ | ⟨hp, hn⟩)
      · rcases List.eq_nil_or_concat c2 with rfl | ⟨c3, o', rfl⟩
        · have := List.append_inj' e rfl
          exact .inl (by simpa using this.2)
        · have e' : a ++ [o] = (c1 ++ .create p :: c3) ++ [o'] := by rw [e]; simp
          have := List.append_inj' e' rfl
          have ho : o = o' := by simpa using this.2
          subst ho
          simp only [List.concat_eq_append, List.mem_append, List.mem_singleton, not_or] at hn
          exact .inr ⟨.inl ⟨c1, c3, this.1, hn.1⟩, fun e => hn.2 e.symm⟩
      · simp only [List.mem_append, List.mem_singleton, not_or] at hn
        exact .inr ⟨.inr ⟨hp, hn.1⟩, fun e => hn.2 e.symm⟩

/-- **C329** (partial), the exact condition: a path at which there was no file when the call looked is free when the call returns iff every file created there in between has been deleted again. -/
theorem C329_exact_partial (calls : Nat → Call) (s0 : Sys) (i : Nat) (a c : List Op) (hf : (calls i).path ∉ (run calls s0 a).files) :
    (calls i).path ∉ (run calls s0 (a ++ .ask i :: c ++ [.resume i])).files ↔ ∀ c1 c2, c = c1 ++ .create (calls i).path :: c2 → .delete (calls i).path ∈ c2 := by
  have e : a ++ Op.ask i :: c ++ [.resume i] = a ++ [.ask i] ++ c ++ [.resume i] := by simp
  have h1 : (calls i).path ∉ (run calls s0 (a ++ [.ask i])).files := by
    rw [run_snoc, step_files]; simp [hf]
  rw [e, run_snoc, step_files, run_append, run_files]
  simp only [reduceCtorEq, false_or, ne_eq, not_false_eq_true, and_true, h1, false_and, or_false]
  constructor
  · intro h c1 c2 hc
    exact Classical.byContradiction fun hn => h ⟨c1, c2, hc, hn⟩
  · rintro h ⟨c1, c2, hc, hn⟩
    exact hn (h c1 c2 hc)

example : (run (exCalls true) {} [.mkdir 0, .ask 0, .create 7, .delete 7, .resume 0]).phase 0 = .returned ∧ 7 ∉ (run (exCalls true) {} [.mkdir 0, .ask 0, .create 7, .delete 7, .resume 0]).files := by decide

example : (run (exCalls true) {} [.create 7, .mkdir 0, .ask 0, .resume 0]).phase 0 = .raised ∧ (run (exCalls true) {} [.mkdir 0, .create 7, .delete 7, .ask 0, .resume 0]).phase 0 = .returned := by decide

end Verif.CreatePathConc
