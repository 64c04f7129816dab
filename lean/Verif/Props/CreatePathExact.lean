import Verif.Props.CreatePath

set_option linter.unusedSectionVars false
set_option linter.unusedSimpArgs false
set_option linter.unusedVariables false

/-!
# C195: exactly which filenames stay in the directory
-/

namespace Verif.CreatePath

/-- The components of a filename before the last slash. -/
def Dirs (filename : Text) : List Text := (splitSlash filename).dropLast

/-- Neither a timestamp nor random digits are added to the name. -/
def Bare (a : NameArgs) : Prop := a.stamp = none ∧ a.hash = none

/-- The last component yields no name of its own: the path is the directory made of the other components. -/
def Nameless (a : NameArgs) (l : Text) : Prop :=
  l = ".".toList ∨ l = "..".toList ∨ (l = [] ∧ ∀ c ∈ a.extension, c = '.')

/-- The file name made of the last component. -/
def finalName (a : NameArgs) (l : Text) : Text := hashed a (stamped a (nameExt a.extension l).1) ++ (nameExt a.extension l).2

theorem stemFor_bare {a : NameArgs} (h : Bare a) (n : Text) : stemFor a n = n := by
  rcases a with ⟨ext, stamp, first, hash⟩
  rcases h with ⟨h1, h2⟩
  simp only at h1 h2
  subst h1; subst h2
  simp [stemFor]

theorem stemFor_notBare {a : NameArgs} (h : ¬ Bare a) (n : Text) : ∃ c, c ∈ stemFor a n ∧ c ≠ '.' := by
  rcases a with ⟨ext, stamp, first, hash⟩
  cases stamp with
  | none =>
    cases hash with
    | none => exact absurd ⟨rfl, rfl⟩ h
    | some h => exact ⟨'-', by simp [stemFor], by decide⟩
  | some ts => cases first <;> exact ⟨'_', by simp [stemFor], by decide⟩

theorem nameExt_noslash {ext l : Text} (he : '/' ∉ ext) (hl : '/' ∉ l) : '/' ∉ (nameExt ext l).1 ∧ '/' ∉ (nameExt ext l).2 := by
  by_cases hd : '.' ∈ l
  · rcases lastDot hd with ⟨s, e, hle, hne⟩
    have hs : '/' ∉ s := fun hm => hl (by rw [hle]; exact List.mem_append_left _ hm)
    have hes : '/' ∉ e := fun hm => hl (by rw [hle]; exact List.mem_append_right _ (List.mem_cons_of_mem _ hm))
    have hn : nameExt ext l = (s, dotted e) := by
      rw [hle]; simp only [nameExt, Element.rsplit_append s e hne]
    rw [hn]
    exact ⟨hs, dotted_noslash hes⟩
  · rw [nameExt_nodot hd]
    exact ⟨hl, dotted_noslash he⟩

theorem finalName_noslash {a : NameArgs} (ha : Seamless a) {l : Text} (hl : '/' ∉ l) : '/' ∉ finalName a l := by
  rcases nameExt_noslash ha.1 hl with ⟨h1, h2⟩
  intro hm
  rw [finalName, hashed_stamped] at hm
  rcases List.mem_append.1 hm with h | h
  · exact stemFor_noslash ha h1 h
  · exact h2 h

theorem finalName_notBare {a : NameArgs} (ha : Seamless a) (hb : ¬ Bare a) {l : Text} (hl : '/' ∉ l) : Plain (finalName a l) := by
  rcases stemFor_notBare hb (nameExt a.extension l).1 with ⟨c, hc, hd⟩
  refine plain_of_mem (c := c) (finalName_noslash ha hl) ?_ hd
  rw [finalName, hashed_stamped]
  exact List.mem_append_left _ hc

theorem dropWhile_nil_iff (e : Text) : e.dropWhile (fun c => c == '.') = [] ↔ ∀ c ∈ e, c = '.' := by
  induction e with
  | nil => simp
  | cons c cs ih =>
    by_cases hc : c = '.'
    · rw [List.dropWhile_cons, if_pos (by simp [hc]), ih]; simp [hc]
    · rw [List.dropWhile_cons, if_neg (by simpa using hc)]; simp [hc]

theorem dropWhile_head (e : Text) : ∀ r, e.dropWhile (fun c => c == '.') ≠ '.' :: r := by
  induction e with
  | nil => intro r; simp
  | cons c cs ih =>
    intro r
    by_cases hc : c = '.'
    · rw [List.dropWhile_cons, if_pos (by simp [hc])]; exact ih r
    · rw [List.dropWhile_cons, if_neg (by simpa using hc)]
      intro h; cases h; exact hc rfl

/-- Which of the special names the file name is. -/
theorem finalName_special {a : NameArgs} (ha : Seamless a) {l : Text} (hl : '/' ∉ l) :
    (finalName a l = "..".toList ↔ Bare a ∧ l = "...".toList) ∧
    ((finalName a l = [] ∨ finalName a l = ".".toList) ↔ Bare a ∧ Nameless a l) := by
  by_cases hb : Bare a
  · by_cases hp : Proper l
    · have hf : Plain (finalName a l) := final_plain ha hl hp
      refine ⟨⟨fun h => absurd h hf.2.2.1, fun h => absurd h.2 hp.2.2.2⟩, ⟨fun h => ?_, fun h => ?_⟩⟩
      · rcases h with h | h
        · exact absurd h hf.1
        · exact absurd h hf.2.1
      · rcases h.2 with h | h | h
        · exact absurd h hp.2.1
        · exact absurd h hp.2.2.1
        · exact absurd h.1 hp.1
    · have hcase : l = [] ∨ l = ".".toList ∨ l = "..".toList ∨ l = "...".toList := by
        by_cases h1 : l = []
        · exact .inl h1
        · by_cases h2 : l = ".".toList
          · exact .inr (.inl h2)
          · by_cases h3 : l = "..".toList
            · exact .inr (.inr (.inl h3))
            · by_cases h4 : l = "...".toList
              · exact .inr (.inr (.inr h4))
              · exact absurd ⟨h1, h2, h3, h4⟩ hp
      rcases hcase with h | h | h | h
      · subst h
        have hf : finalName a [] = dotted a.extension := by
          rw [finalName, hashed_stamped, stemFor_bare hb, nameExt_nodot (by simp)]; rfl
        rw [hf]
        refine ⟨⟨fun h => ?_, fun h => absurd h.2 (by decide)⟩, ⟨fun h => ⟨hb, .inr (.inr ⟨rfl, ?_⟩)⟩, fun h => ?_⟩⟩
        · exfalso
          rw [dotted] at h
          split at h
          · exact absurd h (by decide)
          · have h' : '.' :: a.extension.dropWhile (fun c => c == '.') = ['.', '.'] := h
            injection h' with _ h'
            exact dropWhile_head _ _ h'
        · rw [dotted] at h
          split at h
          · rename_i he; rw [he]; simp
          · rcases h with h | h
            · cases h
            · have h' : '.' :: a.extension.dropWhile (fun c => c == '.') = ['.'] := h
              injection h' with _ h'
              exact (dropWhile_nil_iff _).1 h'
        · rcases h.2 with h | h | h
          · exact absurd h (by decide)
          · exact absurd h (by decide)
          · rw [dotted]
            split
            · exact .inl rfl
            · right
              rw [(dropWhile_nil_iff _).2 h.2]; decide
      · subst h
        have hf : finalName a ".".toList = [] := by
          rw [finalName, hashed_stamped, stemFor_bare hb]; rfl
        rw [hf]
        exact ⟨⟨fun h => absurd h (by decide), fun h => absurd h.2 (by decide)⟩, ⟨fun _ => ⟨hb, .inl rfl⟩, fun _ => .inl rfl⟩⟩
      · subst h
        have hf : finalName a "..".toList = ".".toList := by
          rw [finalName, hashed_stamped, stemFor_bare hb]; rfl
        rw [hf]
        exact ⟨⟨fun h => absurd h (by decide), fun h => absurd h.2 (by decide)⟩, ⟨fun _ => ⟨hb, .inr (.inl rfl)⟩, fun _ => .inr rfl⟩⟩
      · subst h
        have hf : finalName a "...".toList = "..".toList := by
          rw [finalName, hashed_stamped, stemFor_bare hb]; rfl
        rw [hf]
        refine ⟨⟨fun _ => ⟨hb, rfl⟩, fun _ => rfl⟩, ⟨fun h => ?_, fun h => ?_⟩⟩
        · rcases h with h | h <;> exact absurd h (by decide)
        · rcases h.2 with h | h | h
          · exact absurd h (by decide)
          · exact absurd h (by decide)
          · exact absurd h.1 (by decide)
  · have hf := finalName_notBare ha hb hl
    refine ⟨⟨fun h => absurd h hf.2.2.1, fun h => absurd h.1 hb⟩, ⟨fun h => ?_, fun h => absurd h.1 hb⟩⟩
    rcases h with h | h
    · exact absurd h hf.1
    · exact absurd h hf.2.1

theorem components_noslash {t : Text} (h : '/' ∉ t) : components t = if t = [] ∨ t = ".".toList then [] else [t] := by
  rw [components, splitSlash_plain h]
  by_cases h1 : t = []
  · subst h1; rfl
  · by_cases h2 : t = ".".toList
    · subst h2; rfl
    · rw [if_neg (by simp only [not_or]; exact ⟨h1, h2⟩)]
      have h2' : t ≠ ['.'] := h2
      simp [kept, h1, h2']

theorem components_dirs (filename : Text) : components (joinSlash (Dirs filename)) = (Dirs filename).filter kept := by
  by_cases hd : Dirs filename = []
  · rw [hd]; rfl
  · rw [components, splitSlash_join hd (fun t ht => splitSlash_noslash filename t (List.dropLast_subset _ ht))]

theorem subDirectory_eq (dir : Path) (filename : Text) : subDirectory dir filename = dir.join (joinSlash (Dirs filename)) := by
  by_cases h : '/' ∈ filename
  · rw [subDirectory, if_pos h, Dirs]
  · rw [subDirectory, if_neg h, Dirs, splitSlash_plain h]
    simp [Path.join, joinSlash, isAbs, components, splitSlash, kept]

theorem target_ok {a : NameArgs} {dir p : Path} {filename : Text} (h : target a dir filename = .ok p) :
    p = (dir.join (joinSlash (Dirs filename))).join (finalName a (Last filename)) := by
  rw [target] at h
  split at h
  · cases h
  · rw [lastPart_eq, subDirectory_eq] at h
    simp only [Except.ok.injEq] at h
    exact h.symm

theorem join_noslash (p : Path) {t : Text} (h : '/' ∉ t) : p.join t = ⟨p.abs, p.parts ++ components t⟩ := by
  rw [Path.join, isAbs_of_noslash h]; rfl

/-- C195, exactly, when the directory part of the filename is not absolute: the path returned lies in the directory if and only if no
component of the directory part is "..", the file name is not made of "...", and — when the last component yields no name — some other
component does. -/
theorem C195_exact_partial (a : NameArgs) (ha : Seamless a) (dir : Path) (filename : Text) (h0 : isAbs (joinSlash (Dirs filename)) = false)
    (p : Path) (h : target a dir filename = .ok p) :
    Inside dir p ↔ ("..".toList ∉ Dirs filename ∧ (Bare a → Last filename ≠ "...".toList) ∧
      (Bare a → Nameless a (Last filename) → ∃ t ∈ Dirs filename, t ≠ [] ∧ t ≠ ".".toList)) := by
  have hl : '/' ∉ Last filename := splitSlash_noslash filename _ (last_mem filename)
  have hfs := finalName_noslash ha hl
  rcases finalName_special ha hl with ⟨hdd, hnl⟩
  have hp := target_ok h
  have hj : dir.join (joinSlash (Dirs filename)) = ⟨dir.abs, dir.parts ++ (Dirs filename).filter kept⟩ := by
    rw [Path.join, h0, components_dirs]; rfl
  rw [hj, join_noslash _ hfs, components_noslash hfs] at hp
  simp only at hp
  have hdirs : ∀ t ∈ Dirs filename, '/' ∉ t := fun t ht => splitSlash_noslash filename t (List.dropLast_subset _ ht)
  have hmem : ∀ t, t ∈ (Dirs filename).filter kept ↔ t ∈ Dirs filename ∧ t ≠ [] ∧ t ≠ ".".toList := by
    intro t
    simp only [List.mem_filter, kept, Bool.and_eq_true, bne_iff_ne, ne_eq]
    exact Iff.rfl
  have hrest : Inside dir p ↔ ((Dirs filename).filter kept ++ (if finalName a (Last filename) = [] ∨ finalName a (Last filename) = ".".toList then []
      else [finalName a (Last filename)]) ≠ [] ∧
      ∀ t ∈ (Dirs filename).filter kept ++ (if finalName a (Last filename) = [] ∨ finalName a (Last filename) = ".".toList then []
      else [finalName a (Last filename)]), Plain t) := by
    constructor
    · rintro ⟨rest, hr, hne, hpl⟩
      rw [hp] at hr
      simp only [Path.mk.injEq, true_and, List.append_assoc, List.append_cancel_left_eq] at hr
      rw [hr]
      exact ⟨hne, hpl⟩
    · rintro ⟨hne, hpl⟩
      exact ⟨_, by rw [hp, List.append_assoc], hne, hpl⟩
  rw [hrest]
  constructor
  · rintro ⟨hne, hpl⟩
    refine ⟨fun hm => ?_, fun hb he => ?_, fun hb hn => ?_⟩
    · exact (hpl "..".toList (List.mem_append_left _ ((hmem _).2 ⟨hm, by decide, by decide⟩))).2.2.1 rfl
    · have hf := hdd.2 ⟨hb, he⟩
      rw [hf, if_neg (by decide)] at hpl
      exact (hpl "..".toList (List.mem_append_right _ List.mem_cons_self)).2.2.1 rfl
    · have hf := hnl.2 ⟨hb, hn⟩
      rw [if_pos hf, List.append_nil] at hne
      rcases hx : (Dirs filename).filter kept with _ | ⟨t, ts⟩
      · exact absurd hx hne
      · have ht := (hmem t).1 (by rw [hx]; exact List.mem_cons_self)
        exact ⟨t, ht.1, ht.2⟩
  · rintro ⟨h1, h2, h3⟩
    have hd : ∀ t ∈ (Dirs filename).filter kept, Plain t := by
      intro t ht
      rcases (hmem t).1 ht with ⟨m1, m2, m3⟩
      exact ⟨m2, m3, fun e => h1 (by have e' : t = "..".toList := e; rw [← e']; exact m1), hdirs t m1⟩
    by_cases hf : finalName a (Last filename) = [] ∨ finalName a (Last filename) = ".".toList
    · rw [if_pos hf, List.append_nil]
      rcases hnl.1 hf with ⟨hb, hn⟩
      rcases h3 hb hn with ⟨t, ht1, ht2⟩
      exact ⟨List.ne_nil_of_mem ((hmem t).2 ⟨ht1, ht2⟩), hd⟩
    · rw [if_neg hf]
      refine ⟨by simp, fun t ht => ?_⟩
      rcases List.mem_append.1 ht with ht | ht
      · exact hd t ht
      · rw [List.mem_singleton.1 ht]
        refine ⟨fun e => hf (.inl e), fun e => hf (.inr e), fun e => ?_, hfs⟩
        rcases hdd.1 e with ⟨hb, hl3⟩
        exact h2 hb hl3

/-- C195: an absolute directory part of the filename replaces the directory: the path does not depend on it. -/
theorem C195_absolute_exact_partial (a : NameArgs) (ha : Seamless a) (dir : Path) (filename : Text)
    (h0 : isAbs (joinSlash (Dirs filename)) = true) (p : Path) (h : target a dir filename = .ok p) :
    p = ⟨true, (Dirs filename).filter kept ++ components (finalName a (Last filename))⟩ ∧
    target a ⟨!dir.abs, "elsewhere".toList :: dir.parts⟩ filename = .ok p := by
  have hl : '/' ∉ Last filename := splitSlash_noslash filename _ (last_mem filename)
  have hfs := finalName_noslash ha hl
  have hj : ∀ d : Path, d.join (joinSlash (Dirs filename)) = ⟨true, (Dirs filename).filter kept⟩ := by
    intro d; rw [Path.join, h0, components_dirs]; rfl
  have hp := target_ok h
  rw [hj, join_noslash _ hfs] at hp
  refine ⟨hp, ?_⟩
  have hb : '\\' ∉ lastPart filename := by
    intro hm
    rw [target, if_pos hm] at h
    cases h
  rw [target, if_neg hb, subDirectory_eq, hj, lastPart_eq, hp]
  have hfin : hashed a (stamped a (nameExt a.extension (Last filename)).1) ++ (nameExt a.extension (Last filename)).2 = finalName a (Last filename) := rfl
  rw [hfin, join_noslash _ hfs]

example : isAbs (joinSlash (Dirs "a/./x.txt".toList)) = false := by decide +kernel
example : isAbs (joinSlash (Dirs "/etc/x.txt".toList)) = true := by decide +kernel
/-- A single leading slash is harmless: the directory part is empty. -/
example : isAbs (joinSlash (Dirs "/x.txt".toList)) = false := by decide +kernel
example : target plainArgs ⟨true, ["data".toList]⟩ "a/..".toList = .ok ⟨true, ["data".toList, "a".toList]⟩ := by decide +kernel
example : Bare plainArgs ∧ Nameless plainArgs (Last "a/..".toList) := ⟨⟨rfl, rfl⟩, .inr (.inl (by decide +kernel))⟩
example : Seamless plainArgs := ⟨by decide, nofun, nofun⟩

end Verif.CreatePath
