import Verif.Model.CreatePath
import Verif.Props.Element

set_option linter.unusedSectionVars false
set_option linter.unusedSimpArgs false
set_option linter.unusedVariables false

/-!
# C195-C198: `acreate_path`
-/

namespace Verif.CreatePath

/-! ### Specification -/

/-- A component that names an entry of the directory it is looked up in. -/
def Plain (t : Text) : Prop := t ≠ [] ∧ t ≠ ['.'] ∧ t ≠ ['.', '.'] ∧ '/' ∉ t

/-- `p` is the directory `dir` followed by at least one component, none of which leads upwards. -/
def Inside (dir p : Path) : Prop := ∃ rest, p = ⟨dir.abs, dir.parts ++ rest⟩ ∧ rest ≠ [] ∧ ∀ t ∈ rest, Plain t

/-- The stem of the file name asked for: timestamp before or after the given stem, then the random digits. -/
def stemFor (a : NameArgs) (stem : Text) : Text :=
  (match a.stamp, a.stampFirst with
   | none, _ => stem
   | some ts, true => ts ++ ['_'] ++ stem
   | some ts, false => stem ++ ['_'] ++ ts) ++
  (match a.hash with
   | none => []
   | some h => ['-'] ++ h)

/-! ### Splitting and joining -/

theorem consHead_ne (c : Char) (ts : List Text) : consHead c ts ≠ [] := by
  cases ts <;> simp [consHead]

theorem splitSlash_ne (s : Text) : splitSlash s ≠ [] := by
  cases s with
  | nil => simp [splitSlash]
  | cons c cs =>
    simp only [splitSlash]
    split
    · simp
    · exact consHead_ne _ _

theorem splitSlash_plain {t : Text} (h : '/' ∉ t) : splitSlash t = [t] := by
  induction t with
  | nil => rfl
  | cons c cs ih =>
    have hc : c ≠ '/' := fun e => h (by rw [e]; exact List.mem_cons_self)
    have ht : '/' ∉ cs := fun hm => h (List.mem_cons_of_mem _ hm)
    simp only [splitSlash, if_neg hc, ih ht, consHead]

theorem splitSlash_append {t : Text} (h : '/' ∉ t) (r : Text) : splitSlash (t ++ '/' :: r) = t :: splitSlash r := by
  induction t with
  | nil => simp [splitSlash]
  | cons c cs ih =>
    have hc : c ≠ '/' := fun e => h (by rw [e]; exact List.mem_cons_self)
    have ht : '/' ∉ cs := fun hm => h (List.mem_cons_of_mem _ hm)
    simp only [List.cons_append, splitSlash, if_neg hc, ih ht, consHead]

theorem splitSlash_join {ts : List Text} (hne : ts ≠ []) (h : ∀ t ∈ ts, '/' ∉ t) : splitSlash (joinSlash ts) = ts := by
  induction ts with
  | nil => exact absurd rfl hne
  | cons t ts ih =>
    cases ts with
    | nil => exact splitSlash_plain (h t (List.mem_cons_self))
    | cons u us =>
      have : joinSlash (t :: u :: us) = t ++ '/' :: joinSlash (u :: us) := rfl
      rw [this, splitSlash_append (h t List.mem_cons_self), ih (by simp) (fun x hx => h x (List.mem_cons_of_mem _ hx))]

theorem mem_consHead {c : Char} {ts : List Text} {t : Text} (hc : c ≠ '/') (hts : ∀ t ∈ ts, '/' ∉ t) (h : t ∈ consHead c ts) : '/' ∉ t := by
  cases ts with
  | nil =>
    simp only [consHead, List.mem_singleton] at h
    rw [h]
    simp [Ne.symm hc]
  | cons u us =>
    simp only [consHead, List.mem_cons] at h
    rcases h with h | h
    · rw [h]
      intro hm
      rcases List.mem_cons.1 hm with hm | hm
      · exact hc hm.symm
      · exact hts u List.mem_cons_self hm
    · exact hts t (List.mem_cons_of_mem _ h)

theorem splitSlash_noslash (s : Text) : ∀ t ∈ splitSlash s, '/' ∉ t := by
  induction s with
  | nil => intro t ht; simp [splitSlash] at ht; rw [ht]; simp
  | cons c cs ih =>
    intro t ht
    simp only [splitSlash] at ht
    split at ht
    · rcases List.mem_cons.1 ht with h | h
      · rw [h]; simp
      · exact ih t h
    · rename_i hc
      exact mem_consHead hc ih ht

theorem join_splitSlash (s : Text) : joinSlash (splitSlash s) = s := by
  induction s with
  | nil => rfl
  | cons c cs ih =>
    simp only [splitSlash]
    split
    · rename_i hc
      rcases hs : splitSlash cs with _ | ⟨t, ts⟩
      · exact absurd hs (splitSlash_ne cs)
      · rw [hs] at ih
        have : joinSlash ([] :: t :: ts) = '/' :: joinSlash (t :: ts) := rfl
        rw [this, ih, hc]
    · rcases hs : splitSlash cs with _ | ⟨t, ts⟩
      · exact absurd hs (splitSlash_ne cs)
      · rw [hs] at ih
        cases ts with
        | nil => simp only [consHead, joinSlash] at ih ⊢; rw [ih]
        | cons u us =>
          have h1 : joinSlash ((c :: t) :: u :: us) = c :: joinSlash (t :: u :: us) := rfl
          simp only [consHead]
          rw [h1, ih]

theorem components_plain {t : Text} (h : Plain t) : components t = [t] := by
  rcases h with ⟨h1, h2, _, h4⟩
  simp [components, splitSlash_plain h4, kept, h1, h2]

theorem isAbs_of_noslash {t : Text} (h : '/' ∉ t) : isAbs t = false := by
  cases t with
  | nil => rfl
  | cons c cs =>
    have hc : c ≠ '/' := fun e => h (by rw [e]; exact List.mem_cons_self)
    simp only [isAbs]
    split
    · rename_i h'; cases h'; exact absurd rfl hc
    · rfl

theorem join_plain {t : Text} (p : Path) (h : Plain t) : p.join t = ⟨p.abs, p.parts ++ [t]⟩ := by
  rw [Path.join, isAbs_of_noslash h.2.2.2, components_plain h]; rfl

theorem filter_kept {ts : List Text} (h : ∀ t ∈ ts, Plain t) : ts.filter kept = ts := by
  apply List.filter_eq_self.2
  intro t ht
  rcases h t ht with ⟨h1, h2, _⟩
  simp [kept, h1, h2]

theorem isAbs_join {ts : List Text} (h : ∀ t ∈ ts, Plain t) : isAbs (joinSlash ts) = false := by
  cases ts with
  | nil => rfl
  | cons t ts =>
    rcases h t List.mem_cons_self with ⟨h1, _, _, h4⟩
    have hcons : ∃ c cs r, joinSlash (t :: ts) = c :: r ∧ t = c :: cs := by
      cases t with
      | nil => exact absurd rfl h1
      | cons c cs => cases ts <;> exact ⟨c, cs, _, rfl, rfl⟩
    rcases hcons with ⟨c, cs, r, hr, ht⟩
    have hc : c ≠ '/' := fun e => h4 (by rw [ht, e]; exact List.mem_cons_self)
    rw [hr]
    simp only [isAbs]
    split
    · rename_i h'; cases h'; exact absurd rfl hc
    · rfl

theorem join_parts (p : Path) {ts : List Text} (h : ∀ t ∈ ts, Plain t) : p.join (joinSlash ts) = ⟨p.abs, p.parts ++ ts⟩ := by
  cases ts with
  | nil => simp [Path.join, joinSlash, isAbs, components, splitSlash, kept]
  | cons t ts =>
    rw [Path.join, isAbs_join h, components, splitSlash_join (by simp) (fun x hx => (h x hx).2.2.2), filter_kept h]; rfl

theorem mem_joinSlash {subs : List Text} (hne : subs ≠ []) (l : Text) : '/' ∈ joinSlash (subs ++ [l]) := by
  cases subs with
  | nil => exact absurd rfl hne
  | cons t ts =>
    have : joinSlash (t :: ts ++ [l]) = t ++ '/' :: joinSlash (ts ++ [l]) := by
      cases ts <;> rfl
    rw [this]; simp

/-- The directory and last component of a filename given by its components. -/
theorem split_filename (dir : Path) {subs : List Text} {l : Text} (hs : ∀ t ∈ subs, Plain t) (hl : '/' ∉ l) :
    subDirectory dir (joinSlash (subs ++ [l])) = ⟨dir.abs, dir.parts ++ subs⟩ ∧ lastPart (joinSlash (subs ++ [l])) = l := by
  by_cases hne : subs = []
  · subst hne
    simp [subDirectory, lastPart, joinSlash, hl]
  · have hall : ∀ t ∈ subs ++ [l], '/' ∉ t := by
      intro t ht
      rcases List.mem_append.1 ht with h | h
      · exact (hs t h).2.2.2
      · rw [List.mem_singleton.1 h]; exact hl
    have hm := mem_joinSlash hne l
    rw [subDirectory, lastPart, if_pos hm, if_pos hm, splitSlash_join (by simp) hall]
    simp [join_parts dir hs]

/-! ### Names -/

theorem rsplit_none {l : Text} (h : '.' ∉ l) : (Element.rsplit l).1 = none := by
  have : ∀ r : Text, '.' ∉ r → (Element.rsplitRev r).2 = none := by
    intro r hr
    induction r with
    | nil => rfl
    | cons c cs ih =>
      have hc : c ≠ '.' := fun e => hr (by rw [e]; exact List.mem_cons_self)
      simp only [Element.rsplitRev, if_neg hc]
      exact ih (fun hm => hr (List.mem_cons_of_mem _ hm))
  exact this l.reverse (by simpa using h)

theorem dropWhile_dots {e : Text} (h : '.' ∉ e) : e.dropWhile (fun c => c == '.') = e := by
  cases e with
  | nil => rfl
  | cons c cs =>
    have hc : c ≠ '.' := fun e => h (by rw [e]; exact List.mem_cons_self)
    rw [List.dropWhile_cons, if_neg (by simpa using hc)]

theorem dropWhile_replicate {e : Text} (h : e.head? ≠ some '.') (k : Nat) : (List.replicate k '.' ++ e).dropWhile (fun c => c == '.') = e := by
  induction k with
  | zero =>
    cases e with
    | nil => rfl
    | cons c cs =>
      have hc : c ≠ '.' := fun e => h (by rw [e]; rfl)
      rw [List.replicate_zero, List.nil_append, List.dropWhile_cons, if_neg (by simpa using hc)]
  | succ k ih => rw [List.replicate_succ, List.cons_append, List.dropWhile_cons]; simpa using ih

theorem hashed_stamped (a : NameArgs) (n : Text) : hashed a (stamped a n) = stemFor a n := by
  rcases a with ⟨ext, stamp, first, hash⟩
  cases stamp <;> cases hash <;> cases first <;> simp [hashed, stamped, stemFor]

theorem nameExt_dot {ext stem e : Text} (he : '.' ∉ e) (hne : e ≠ []) : nameExt ext (stem ++ '.' :: e) = (stem, '.' :: e) := by
  simp only [nameExt, Element.rsplit_append stem e he, dotted, if_neg hne, dropWhile_dots he]

theorem nameExt_nodot {ext l : Text} (h : '.' ∉ l) : nameExt ext l = (l, dotted ext) := by
  simp only [nameExt, rsplit_none h]

/-- The texts put into the name contain no directory separator. -/
def Seamless (a : NameArgs) : Prop :=
  '/' ∉ a.extension ∧ (∀ ts, a.stamp = some ts → '/' ∉ ts) ∧ (∀ h, a.hash = some h → '/' ∉ h)

theorem stemFor_noslash {a : NameArgs} (ha : Seamless a) {n : Text} (hn : '/' ∉ n) : '/' ∉ stemFor a n := by
  rcases a with ⟨ext, stamp, first, hash⟩
  rcases ha with ⟨_, h2, h3⟩
  cases stamp with
  | none =>
    cases hash with
    | none => simp [stemFor, hn]
    | some h => have := h3 h rfl; simp [stemFor, hn, this]
  | some ts =>
    have ht := h2 ts rfl
    cases hash with
    | none => cases first <;> simp [stemFor, hn, ht]
    | some h => have := h3 h rfl; cases first <;> simp [stemFor, hn, ht, this]

/-- Either the stem is as given, or it contains a character that is no dot. -/
theorem stemFor_cases (a : NameArgs) (n : Text) : stemFor a n = n ∨ ∃ c, c ∈ stemFor a n ∧ c ≠ '.' := by
  rcases a with ⟨ext, stamp, first, hash⟩
  cases stamp with
  | none =>
    cases hash with
    | none => left; simp [stemFor]
    | some h => right; exact ⟨'-', by simp [stemFor], by decide⟩
  | some ts => right; cases first <;> exact ⟨'_', by simp [stemFor], by decide⟩

theorem plain_of_mem {t : Text} {c : Char} (hs : '/' ∉ t) (hc : c ∈ t) (hd : c ≠ '.') : Plain t := by
  refine ⟨?_, ?_, ?_, hs⟩ <;> (intro h; rw [h] at hc; simp at hc) <;> exact hd hc

/-! ### C196 -/

/-- C196: for a filename with an extension, the path is the directory, the subdirectories of the filename, and the stem with timestamp
and random digits followed by the extension of the filename; the argument `extension` is ignored. -/
theorem C196_with_extension (a : NameArgs) (ha : Seamless a) (dir : Path) (subs : List Text) (stem ext : Text)
    (hsubs : ∀ t ∈ subs, Plain t) (hstem : '/' ∉ stem ∧ '\\' ∉ stem) (hext : ext ≠ [] ∧ '.' ∉ ext ∧ '/' ∉ ext ∧ '\\' ∉ ext) :
    target a dir (joinSlash (subs ++ [stem ++ '.' :: ext])) = .ok ⟨dir.abs, dir.parts ++ subs ++ [stemFor a stem ++ '.' :: ext]⟩ := by
  have hl : '/' ∉ stem ++ '.' :: ext := by simp [hstem.1, hext.2.2.1]
  rcases split_filename dir hsubs hl with ⟨h1, h2⟩
  have hb : '\\' ∉ stem ++ '.' :: ext := by simp [hstem.2, hext.2.2.2]
  have hplain : Plain (stemFor a stem ++ '.' :: ext) := by
    rcases ext with _ | ⟨c, cs⟩
    · exact absurd rfl hext.1
    · have hc : c ≠ '.' := fun e => hext.2.1 (by rw [e]; exact List.mem_cons_self)
      refine plain_of_mem (c := c) ?_ (by simp) hc
      intro hm
      rcases List.mem_append.1 hm with h | h
      · exact stemFor_noslash ha hstem.1 h
      · rcases List.mem_cons.1 h with h | h
        · exact absurd h (by decide)
        · exact hext.2.2.1 h
  rw [target, h1, h2, if_neg hb, nameExt_dot hext.2.1 hext.1, hashed_stamped, join_plain _ hplain]

/-- C196: for a filename without dots, the extension given as an argument is appended, with exactly one dot. -/
theorem C196_without_extension (a : NameArgs) (ha : Seamless a) (dir : Path) (subs : List Text) (stem ext : Text) (dots : Nat)
    (hsubs : ∀ t ∈ subs, Plain t) (hstem : stem ≠ [] ∧ '.' ∉ stem ∧ '/' ∉ stem ∧ '\\' ∉ stem)
    (hext : ext ≠ [] ∧ ext.head? ≠ some '.') (he : a.extension = List.replicate dots '.' ++ ext) :
    target a dir (joinSlash (subs ++ [stem])) = .ok ⟨dir.abs, dir.parts ++ subs ++ [stemFor a stem ++ '.' :: ext]⟩ := by
  rcases split_filename dir hsubs hstem.2.2.1 with ⟨h1, h2⟩
  have hd : dotted a.extension = '.' :: ext := by
    have hne : a.extension ≠ [] := by rw [he]; simp [hext.1]
    rw [dotted, if_neg hne, he, dropWhile_replicate hext.2]
  have hes : '/' ∉ ext := by
    intro hm
    exact ha.1 (by rw [he]; exact List.mem_append_right _ hm)
  have hplain : Plain (stemFor a stem ++ '.' :: ext) := by
    rcases ext with _ | ⟨c, cs⟩
    · exact absurd rfl hext.1
    · have hc : c ≠ '.' := fun e => hext.2 (by rw [e]; rfl)
      refine plain_of_mem (c := c) ?_ (by simp) hc
      intro hm
      rcases List.mem_append.1 hm with h | h
      · exact stemFor_noslash ha hstem.2.2.1 h
      · rcases List.mem_cons.1 h with h | h
        · exact absurd h (by decide)
        · exact hes h
  rw [target, h1, h2, if_neg hstem.2.2.2, nameExt_nodot hstem.2.1, hashed_stamped, hd, join_plain _ hplain]

/-- C196: without dots and without an extension argument the stem is the whole name. -/
theorem C196_no_extension (a : NameArgs) (ha : Seamless a) (dir : Path) (subs : List Text) (stem : Text)
    (hsubs : ∀ t ∈ subs, Plain t) (hstem : stem ≠ [] ∧ '.' ∉ stem ∧ '/' ∉ stem ∧ '\\' ∉ stem) (he : a.extension = []) :
    target a dir (joinSlash (subs ++ [stem])) = .ok ⟨dir.abs, dir.parts ++ subs ++ [stemFor a stem]⟩ := by
  rcases split_filename dir hsubs hstem.2.2.1 with ⟨h1, h2⟩
  have hplain : Plain (stemFor a stem) := by
    rcases stemFor_cases a stem with h | ⟨c, hc, hd⟩
    · rw [h]
      rcases stem with _ | ⟨c, cs⟩
      · exact absurd rfl hstem.1
      · exact plain_of_mem (c := c) hstem.2.2.1 List.mem_cons_self (fun e => hstem.2.1 (by rw [e]; exact List.mem_cons_self))
    · exact plain_of_mem (stemFor_noslash ha hstem.2.2.1) hc hd
  rw [target, h1, h2, if_neg hstem.2.2.2, nameExt_nodot hstem.2.1, hashed_stamped, he, dotted, if_pos rfl, List.append_nil, join_plain _ hplain]

/-- Limit of C196: a name ending with a dot counts as having an (empty) extension, so the extension argument is dropped, and so is the dot. -/
theorem C196_trailing_dot_limit (a : NameArgs) (ha : a.stamp = none ∧ a.hash = none) (dir : Path) :
    target a dir "report.".toList = .ok ⟨dir.abs, dir.parts ++ ["report".toList]⟩ := by
  rcases a with ⟨ext, stamp, first, hash⟩
  rcases ha with ⟨h1, h2⟩
  simp only at h1 h2
  subst h1; subst h2
  have e : target ⟨ext, none, first, none⟩ dir "report.".toList = .ok (dir.join "report".toList) := rfl
  rw [e, join_plain _ ⟨by decide, by decide, by decide, by decide⟩]

def stampedArgs : NameArgs := ⟨".json".toList, some "2025".toList, false, some "ab".toList⟩

example : Seamless stampedArgs := by
  refine ⟨by decide, ?_, ?_⟩ <;> (intro x h; cases h; decide)
example : target stampedArgs ⟨true, ["logs".toList]⟩ "a/b/app.log".toList
    = .ok ⟨true, ["logs".toList, "a".toList, "b".toList, "app_2025-ab.log".toList]⟩ := by decide +kernel
example : target stampedArgs ⟨true, ["logs".toList]⟩ "app".toList = .ok ⟨true, ["logs".toList, "app_2025-ab.json".toList]⟩ := by
  decide +kernel
example : ∀ t ∈ ["a".toList, "b".toList], Plain t := by
  intro t ht
  simp only [List.mem_cons, List.not_mem_nil, or_false] at ht
  rcases ht with h | h <;> subst h <;> exact ⟨by decide, by decide, by decide, by decide⟩

/-! ### C195 -/

/-- The last component of a filename. -/
def Last (filename : Text) : Text := (splitSlash filename).getLastD []

theorem lastPart_eq (filename : Text) : lastPart filename = Last filename := by
  by_cases h : '/' ∈ filename
  · rw [lastPart, if_pos h, Last]
  · rw [lastPart, if_neg h, Last, splitSlash_plain h]; rfl

theorem last_mem (filename : Text) : Last filename ∈ splitSlash filename := by
  rw [Last, List.getLastD_eq_getLast?, List.getLast?_eq_some_getLast (splitSlash_ne filename)]
  exact List.getLast_mem _

theorem lastDot {l : Text} (h : '.' ∈ l) : ∃ s e, l = s ++ '.' :: e ∧ '.' ∉ e := by
  induction l with
  | nil => cases h
  | cons c cs ih =>
    by_cases hc : '.' ∈ cs
    · rcases ih hc with ⟨s, e, h1, h2⟩
      exact ⟨c :: s, e, by rw [h1]; rfl, h2⟩
    · rcases List.mem_cons.1 h with h | h
      · exact ⟨[], cs, by rw [← h]; rfl, hc⟩
      · exact absurd h hc

/-- A last component from which a proper file name is made. -/
def Proper (l : Text) : Prop := l ≠ [] ∧ l ≠ ".".toList ∧ l ≠ "..".toList ∧ l ≠ "...".toList

theorem dotted_noslash {e : Text} (h : '/' ∉ e) : '/' ∉ dotted e := by
  rw [dotted]
  split
  · simp
  · intro hm
    rcases List.mem_cons.1 hm with hm | hm
    · exact absurd hm (by decide)
    · exact h ((List.dropWhile_sublist _).subset hm)

theorem final_plain {a : NameArgs} (ha : Seamless a) {l : Text} (hl : '/' ∉ l) (hp : Proper l) :
    Plain (hashed a (stamped a (nameExt a.extension l).1) ++ (nameExt a.extension l).2) := by
  rw [hashed_stamped]
  by_cases hd : '.' ∈ l
  · rcases lastDot hd with ⟨s, e, hle, he⟩
    have hs : '/' ∉ s := fun hm => hl (by rw [hle]; exact List.mem_append_left _ hm)
    have hes : '/' ∉ e := fun hm => hl (by rw [hle]; exact List.mem_append_right _ (List.mem_cons_of_mem _ hm))
    by_cases hne : e = []
    · subst hne
      have hn : nameExt a.extension l = (s, []) := by
        rw [hle]
        simp only [nameExt, Element.rsplit_append s [] he, dotted, if_true]
      rw [hn, List.append_nil]
      rcases stemFor_cases a s with h | ⟨c, hc, hcd⟩
      · rw [h]
        refine ⟨?_, ?_, ?_, hs⟩
        · intro h0; exact hp.2.1 (by rw [hle, h0]; rfl)
        · intro h0; exact hp.2.2.1 (by rw [hle, h0]; rfl)
        · intro h0; exact hp.2.2.2 (by rw [hle, h0]; rfl)
      · exact plain_of_mem (stemFor_noslash ha hs) hc hcd
    · rw [hle, nameExt_dot he hne]
      rcases e with _ | ⟨c, cs⟩
      · exact absurd rfl hne
      · have hc : c ≠ '.' := fun e => he (by rw [e]; exact List.mem_cons_self)
        refine plain_of_mem (c := c) ?_ (by simp) hc
        intro hm
        rcases List.mem_append.1 hm with h | h
        · exact stemFor_noslash ha hs h
        · rcases List.mem_cons.1 h with h | h
          · exact absurd h (by decide)
          · exact hes h
  · rw [nameExt_nodot hd]
    have hns : '/' ∉ stemFor a l ++ dotted a.extension := by
      intro hm
      rcases List.mem_append.1 hm with h | h
      · exact stemFor_noslash ha hl h
      · exact dotted_noslash ha.1 h
    rcases stemFor_cases a l with h | ⟨c, hc, hcd⟩
    · rcases hcl : l with _ | ⟨c, cs⟩
      · exact absurd hcl hp.1
      · rw [← hcl]
        exact plain_of_mem (c := c) hns (by rw [h, hcl]; simp) (fun e => hd (by rw [hcl, e]; exact List.mem_cons_self))
    · exact plain_of_mem hns (List.mem_append_left _ hc) hcd

theorem isAbs_dropLast {filename : Text} (h : isAbs filename = false) : isAbs (joinSlash (splitSlash filename).dropLast) = false := by
  rcases hs : splitSlash filename with _ | ⟨t, ts⟩
  · exact absurd hs (splitSlash_ne filename)
  · have hj := join_splitSlash filename
    rw [hs] at hj
    cases ts with
    | nil => rfl
    | cons u us =>
      have hj' : filename = t ++ '/' :: joinSlash (u :: us) := hj.symm
      have ht : '/' ∉ t := splitSlash_noslash filename t (by rw [hs]; exact List.mem_cons_self)
      cases t with
      | nil => rw [hj'] at h; simp [isAbs] at h
      | cons c cs =>
        have hc : c ≠ '/' := fun e => ht (by rw [e]; exact List.mem_cons_self)
        have hcons : ∃ r, joinSlash ((c :: cs) :: u :: us).dropLast = c :: r := by
          cases us with
          | nil => exact ⟨_, rfl⟩
          | cons w ws => exact ⟨_, rfl⟩
        rcases hcons with ⟨r, hr⟩
        rw [hr]
        simp only [isAbs]
        split
        · rename_i h'; cases h'; exact absurd rfl hc
        · rfl

/-- C195 for filenames that do not begin with "/", have no component "..", and whose last component is not made of at most three dots:
the path returned lies in the directory. -/
theorem C195_inside_partial (a : NameArgs) (ha : Seamless a) (dir : Path) (filename : Text) (h0 : isAbs filename = false)
    (h1 : "..".toList ∉ splitSlash filename) (h2 : Proper (Last filename)) (p : Path) (h : target a dir filename = .ok p) :
    Inside dir p := by
  have hl : '/' ∉ Last filename := splitSlash_noslash filename _ (last_mem filename)
  have hsub : ∃ subs, subDirectory dir filename = ⟨dir.abs, dir.parts ++ subs⟩ ∧ ∀ t ∈ subs, Plain t := by
    by_cases hm : '/' ∈ filename
    · refine ⟨components (joinSlash (splitSlash filename).dropLast), ?_, ?_⟩
      · rw [subDirectory, if_pos hm, Path.join, isAbs_dropLast h0]; rfl
      · intro t ht
        simp only [components, List.mem_filter] at ht
        by_cases hd : (splitSlash filename).dropLast = []
        · rw [hd] at ht
          simp only [joinSlash, splitSlash, List.mem_singleton] at ht
          rw [ht.1] at ht
          simp [kept] at ht
        · have hd' : ∀ t ∈ (splitSlash filename).dropLast, '/' ∉ t := fun t ht => splitSlash_noslash filename t (List.dropLast_subset _ ht)
          rw [splitSlash_join hd hd'] at ht
          have hk := ht.2
          simp only [kept, Bool.and_eq_true, bne_iff_ne, ne_eq] at hk
          refine ⟨hk.1, hk.2, ?_, hd' t ht.1⟩
          intro e
          exact h1 (by have := List.dropLast_subset _ ht.1; rw [e] at this; exact this)
    · exact ⟨[], by rw [subDirectory, if_neg hm]; simp, by simp⟩
  rcases hsub with ⟨subs, hs1, hs2⟩
  have hp := final_plain ha hl h2
  rw [target] at h
  split at h
  · cases h
  · rw [lastPart_eq, hs1, join_plain _ hp] at h
    simp only [Except.ok.injEq] at h
    refine ⟨subs ++ [hashed a (stamped a (nameExt a.extension (Last filename)).1) ++ (nameExt a.extension (Last filename)).2], ?_, by simp, ?_⟩
    · rw [← h, List.append_assoc]
    · intro t ht
      rcases List.mem_append.1 ht with ht | ht
      · exact hs2 t ht
      · rw [List.mem_singleton.1 ht]; exact hp

def plainArgs : NameArgs := ⟨[], none, false, none⟩

theorem inside_length {dir p : Path} (h : Inside dir p) : dir.parts.length < p.parts.length ∧ dir.abs = p.abs := by
  rcases h with ⟨rest, hp, hne, _⟩
  rw [hp]
  cases rest with
  | nil => exact absurd rfl hne
  | cons r rs => simp

/-- C195 is refuted: a filename with ".." leads out of the directory. -/
theorem C195_dotdot_violation :
    target plainArgs ⟨true, ["data".toList]⟩ "../etc/passwd".toList = .ok ⟨true, ["data".toList, "..".toList, "etc".toList, "passwd".toList]⟩ ∧
    ¬ Inside ⟨true, ["data".toList]⟩ ⟨true, ["data".toList, "..".toList, "etc".toList, "passwd".toList]⟩ := by
  refine ⟨by decide +kernel, ?_⟩
  rintro ⟨rest, hp, _, hr⟩
  simp only [Path.mk.injEq, true_and] at hp
  have : "..".toList ∈ rest := by
    have h2 : rest = ["..".toList, "etc".toList, "passwd".toList] := by simpa using hp.symm
    rw [h2]; exact List.mem_cons_self
  exact (hr _ this).2.2.1 (by decide)

/-- C195 is refuted: an absolute filename replaces the directory. -/
theorem C195_absolute_violation :
    target plainArgs ⟨true, ["data".toList, "out".toList]⟩ "/etc/passwd".toList = .ok ⟨true, ["etc".toList, "passwd".toList]⟩ ∧
    ¬ Inside ⟨true, ["data".toList, "out".toList]⟩ ⟨true, ["etc".toList, "passwd".toList]⟩ :=
  ⟨by decide +kernel, fun h => absurd (inside_length h).1 (by decide)⟩

/-- C195 is refuted: the filename "..." is split into the name ".." and an empty extension, the empty filename gives the directory itself. -/
theorem C195_dots_violation :
    target plainArgs ⟨true, ["data".toList]⟩ "...".toList = .ok ⟨true, ["data".toList, "..".toList]⟩ ∧
    target plainArgs ⟨true, ["data".toList]⟩ [] = .ok ⟨true, ["data".toList]⟩ ∧
    ¬ Inside ⟨true, ["data".toList]⟩ ⟨true, ["data".toList]⟩ :=
  ⟨by decide +kernel, by decide +kernel, fun h => absurd (inside_length h).1 (by decide)⟩

example : isAbs "a//b/x.tar.gz".toList = false ∧ "..".toList ∉ splitSlash "a//b/x.tar.gz".toList ∧ Proper (Last "a//b/x.tar.gz".toList) := by
  refine ⟨by decide +kernel, by decide +kernel, ?_⟩
  refine ⟨by decide +kernel, by decide +kernel, by decide +kernel, by decide +kernel⟩

/-! ### C197 -/

/-- C197 for a backslash in the last component: `ValueError`, and nothing is created. -/
theorem C197_backslash_partial (a : NameArgs) (fl : Flags) (late : Late) (fs : FS) (dir : Path) (filename : Text) (h : '\\' ∈ Last filename) :
    acreatePath a fl late fs dir filename = (fs, .error .valueError) := by
  simp only [acreatePath, target, lastPart_eq, if_pos h]

/-- C197 is refuted: a backslash in a subdirectory of the filename is accepted. -/
theorem C197_subdirectory_violation :
    '\\' ∈ "a\\b/c.txt".toList ∧
    target plainArgs ⟨true, []⟩ "a\\b/c.txt".toList = .ok ⟨true, ["a\\b".toList, "c.txt".toList]⟩ := by decide +kernel

example : '\\' ∈ Last "a/b\\c".toList := by decide +kernel

/-! ### C198 -/

/-- What exists has a directory as its parent. -/
def WF (fs : FS) : Prop := ∀ n up, fs (n :: up) ≠ none → status fs up = .dir

/-- C198: what a lookup meets, in terms of what exists. -/
theorem C198_status (fs : FS) (hwf : WF fs) (n : Text) (up : List Text) :
    (status fs (n :: up) = .file ↔ fs (n :: up) = some .file) ∧ (status fs (n :: up) = .dir ↔ fs (n :: up) = some .dir) := by
  have key : fs (n :: up) ≠ none → status fs (n :: up) = entry (fs (n :: up)) := by
    intro h
    simp only [status, hwf n up h]
  have back : fs (n :: up) = none → status fs (n :: up) ≠ .file ∧ status fs (n :: up) ≠ .dir := by
    intro h
    simp only [status, h]
    split <;> simp [entry]
  cases hx : fs (n :: up) with
  | none => obtain ⟨h1, h2⟩ := back hx; simp [h1, h2]
  | some k =>
    rw [key (by rw [hx]; simp), hx]
    cases k <;> simp [entry]

/-- `fs'` is `fs` with directories added at `p` or above. -/
def Grown (fs fs' : FS) (p : List Text) : Prop :=
  ∀ q, fs' q = fs q ∨ (fs q = none ∧ fs' q = some .dir ∧ q <:+ p)

theorem Grown.refl (fs : FS) (p : List Text) : Grown fs fs p := fun _ => .inl rfl

theorem Grown.trans {fs fs1 fs2 : FS} {p q : List Text} (h1 : Grown fs fs1 p) (h2 : Grown fs1 fs2 q) (hpq : p <:+ q) : Grown fs fs2 q := by
  intro r
  rcases h2 r with h | ⟨h, h', h''⟩
  · rcases h1 r with g | ⟨g, g', g''⟩
    · exact .inl (by rw [h, g])
    · exact .inr ⟨g, by rw [h, g'], g''.trans hpq⟩
  · rcases h1 r with g | ⟨g, g', g''⟩
    · exact .inr ⟨by rw [← g, h], h', h''⟩
    · rw [g'] at h; cases h

theorem status_congr {fs fs' : FS} {p : List Text} (h : ∀ q, q <:+ p → fs' q = fs q) : status fs' p = status fs p := by
  induction p with
  | nil => rfl
  | cons n up ih =>
    have := ih (fun q hq => h q (hq.trans (List.suffix_cons n up)))
    simp only [status, this, h (n :: up) (List.suffix_refl _)]

theorem not_suffix_cons {n : Text} {up : List Text} : ¬ (n :: up) <:+ up := by
  intro h
  have := h.length_le
  simp at this
  omega

theorem status_make_self {fs : FS} {n : Text} {up : List Text} (h : status fs up = .dir) : status (fs.make (n :: up)) (n :: up) = .dir := by
  have h1 : status (fs.make (n :: up)) up = .dir := by
    rw [status_congr (fs := fs) (fs' := fs.make (n :: up)), h]
    intro q hq
    simp only [FS.make]
    rw [if_neg]
    intro e
    rw [e] at hq
    exact not_suffix_cons hq
  simp only [status, h1, FS.make, if_true, entry]

theorem mkdirOne_spec (fs : FS) (ok : Bool) (p : List Text) :
    Grown fs (mkdirOne fs ok p).1 p ∧ ((mkdirOne fs ok p).2 = .ok () → status (mkdirOne fs ok p).1 p = .dir) := by
  cases p with
  | nil => exact ⟨Grown.refl _ _, fun _ => rfl⟩
  | cons n up =>
    rcases hp : status fs (n :: up) with _ | _ | _ | _
    · refine ⟨?_, ?_⟩
      · simp only [mkdirOne, hp]; exact Grown.refl _ _
      · intro _; simp only [mkdirOne, hp]
    · refine ⟨?_, ?_⟩
      · simp only [mkdirOne, hp]; exact Grown.refl _ _
      · intro h; simp only [mkdirOne, hp] at h; cases h
    · rcases hu : status fs up with _ | _ | _ | _
      · have hnone : fs (n :: up) = none := by
          simp only [status, hu] at hp
          cases hf : fs (n :: up) with
          | none => rfl
          | some k => rw [hf] at hp; cases k <;> simp [entry] at hp
        refine ⟨?_, ?_⟩
        · simp only [mkdirOne, hp, hu]
          intro q
          by_cases hq : q = n :: up
          · right; rw [hq]; exact ⟨hnone, by simp [FS.make], List.suffix_refl _⟩
          · left; simp [FS.make, hq]
        · intro _; simp only [mkdirOne, hp, hu]; exact status_make_self hu
      all_goals
        refine ⟨?_, ?_⟩
        · simp only [mkdirOne, hp, hu]; exact Grown.refl _ _
        · intro h; simp only [mkdirOne, hp, hu] at h; cases h
    · refine ⟨?_, ?_⟩
      · simp only [mkdirOne, hp]; exact Grown.refl _ _
      · intro h; simp only [mkdirOne, hp] at h; cases h

theorem mkdirs_spec (fs : FS) (ok : Bool) (p : List Text) :
    Grown fs (mkdirs fs ok p).1 p ∧ ((mkdirs fs ok p).2 = .ok () → status (mkdirs fs ok p).1 p = .dir) := by
  induction p generalizing ok with
  | nil => exact mkdirOne_spec fs ok []
  | cons n up ih =>
    by_cases hm : status fs up = .missing
    · rcases ih true with ⟨h1, _⟩
      simp only [mkdirs, if_pos hm]
      rcases hr : mkdirs fs true up with ⟨fs1, r⟩
      rw [hr] at h1
      cases r with
      | error e => exact ⟨h1.trans (Grown.refl _ _) (List.suffix_cons n up), fun h => by cases h⟩
      | ok u =>
        rcases mkdirOne_spec fs1 ok (n :: up) with ⟨g1, g2⟩
        exact ⟨h1.trans g1 (List.suffix_cons n up), g2⟩
    · simp only [mkdirs, if_neg hm]
      exact mkdirOne_spec fs ok (n :: up)

/-- C198: `acreate_path` changes nothing but creating missing directories above the target; in particular it neither creates nor changes
the target, whatever the outcome. -/
theorem C198_frame (a : NameArgs) (fl : Flags) (late : Late) (fs : FS) (dir : Path) (filename : Text) (q : List Text) :
    (acreatePath a fl late fs dir filename).1 q = fs q ∨
    ∃ p, target a dir filename = .ok p ∧ fs q = none ∧ (acreatePath a fl late fs dir filename).1 q = some .dir ∧
      q <:+ p.parent.parts.reverse := by
  simp only [acreatePath]
  cases ht : target a dir filename with
  | error e => exact .inl rfl
  | ok p =>
    simp only [claim]
    split
    · exact .inl rfl
    · have hg := (mkdirs_spec fs fl.dirExistOk p.parent.parts.reverse).1 q
      rcases hm : mkdirs fs fl.dirExistOk p.parent.parts.reverse with ⟨fs1, r⟩
      rw [hm] at hg
      have hg' : fs1 q = fs q ∨ ∃ p', Except.ok p = (Except.ok p' : Except PErr Path) ∧ fs q = none ∧ fs1 q = some .dir ∧ q <:+ p'.parent.parts.reverse := by
        rcases hg with h | ⟨h1, h2, h3⟩
        · exact .inl h
        · exact .inr ⟨p, rfl, h1, h2, h3⟩
      cases r with
      | error e => exact hg'
      | ok u =>
        simp only
        split
        · exact hg'
        · simp only [checkFree]
          split <;> exact hg'

/-- C198: when a path is returned, its parent is a directory, and unless existing files were allowed nothing exists at the path. -/
theorem C198_ready (a : NameArgs) (fl : Flags) (late : Late) (fs fs' : FS) (dir p : Path) (filename : Text)
    (h : acreatePath a fl late fs dir filename = (fs', .ok p)) :
    target a dir filename = .ok p ∧ status fs' p.parent.parts.reverse = .dir ∧
    (fl.fileExistOk = false → status fs' p.parts.reverse = .missing) := by
  simp only [acreatePath] at h
  cases ht : target a dir filename with
  | error e => rw [ht] at h; simp at h
  | ok p' =>
    rw [ht] at h
    simp only [claim] at h
    split at h
    · simp at h
    · have hs := (mkdirs_spec fs fl.dirExistOk p'.parent.parts.reverse).2
      rcases hm : mkdirs fs fl.dirExistOk p'.parent.parts.reverse with ⟨fs1, r⟩
      rw [hm] at h hs
      cases r with
      | error e => simp at h
      | ok u =>
        simp only at h
        split at h
        · simp at h
        · simp only [checkFree] at h
          split at h
          · simp at h
          · rename_i hc
            simp only [Prod.mk.injEq, Except.ok.injEq] at h
            rcases h with ⟨h1, h2⟩
            subst h1 h2
            have hpar : status fs1 p'.parent.parts.reverse = .dir := hs rfl
            refine ⟨rfl, hpar, ?_⟩
            intro hf
            simp only [hf, Bool.not_false, Bool.and_true, Bool.not_eq_true] at hc
            rcases hr : p'.parts.reverse with _ | ⟨n, up⟩
            · rw [hr] at hc; simp [present, status] at hc
            · have hup : p'.parent.parts.reverse = up := by
                simp only [Path.parent]
                have : p'.parts = up.reverse ++ [n] := by
                  have := congrArg List.reverse hr
                  simpa using this
                rw [this]; simp
              rw [hup] at hpar
              rw [hr] at hc
              simp only [present] at hc
              simp only [status, hpar] at hc ⊢
              cases hk : fs1 (n :: up) with
              | none => rfl
              | some k => rw [hk] at hc; cases k <;> simp [entry] at hc

/-- The outcome promised by the documentation, from what is found at the parent and at the target before the call. -/
def outcome (fl : Flags) (late : Late) (parent here : Status) (p : Path) : Except PErr Path :=
  if late 0 then .error .timeout
  else if parent = .file then .error .fileExists
  else if parent = .notDir then .error .notADirectory
  else if parent = .dir ∧ fl.dirExistOk = false then .error .fileExists
  else if late 1 then .error .timeout
  else if (here = .dir ∨ here = .file) ∧ fl.fileExistOk = false then .error .fileExists
  else .ok p

theorem status_cases (s : Status) : s = .dir ∨ s = .file ∨ s = .missing ∨ s = .notDir := by cases s <;> simp

theorem status_missing_make {fs : FS} (hwf : WF fs) {n : Text} {up : List Text} (h : status fs up = .missing) : status fs (n :: up) = .missing := by
  simp only [status, h]

theorem mkdirs_missing (fs : FS) (hwf : WF fs) (ok : Bool) (p : List Text) (h : status fs p = .missing) : (mkdirs fs ok p).2 = .ok () := by
  induction p generalizing ok with
  | nil => simp [status] at h
  | cons n up ih =>
    by_cases hm : status fs up = .missing
    · have hi := ih true hm
      have hs := mkdirs_spec fs true up
      simp only [mkdirs, if_pos hm]
      rcases hr : mkdirs fs true up with ⟨fs1, r⟩
      rw [hr] at hi hs
      simp only at hi
      subst hi
      have hd : status fs1 up = .dir := hs.2 rfl
      have hnone : fs1 (n :: up) = none := by
        rcases hs.1 (n :: up) with g | ⟨_, _, g⟩
        · have g' : fs1 (n :: up) = fs (n :: up) := g
          rw [g']
          cases hf : fs (n :: up) with
          | none => rfl
          | some k => have := hwf n up (by rw [hf]; simp); rw [hm] at this; cases this
        · exact absurd g not_suffix_cons
      have hst : status fs1 (n :: up) = .missing := by simp only [status, hd, hnone, entry]
      simp only [mkdirOne, hst, hd]
    · simp only [mkdirs, if_neg hm]
      have hd : status fs up = .dir := by
        simp only [status] at h
        rcases hu : status fs up with _ | _ | _ | _
        · rfl
        · rw [hu] at h; cases h
        · exact absurd hu hm
        · rw [hu] at h; cases h
      simp only [mkdirOne, h, hd]

theorem mkdirs_present (fs : FS) (ok : Bool) (p : List Text) (h : status fs p ≠ .missing) :
    mkdirs fs ok p = (fs, match status fs p with
      | .dir => if ok then .ok () else .error .fileExists
      | .file => .error .fileExists
      | _ => .error .notADirectory) := by
  cases p with
  | nil => simp [mkdirs, mkdirOne, status]
  | cons n up =>
    have hm : status fs up ≠ .missing := by
      intro e
      apply h
      simp only [status, e]
    simp only [mkdirs, if_neg hm]
    rcases hp : status fs (n :: up) with _ | _ | _ | _
    · simp only [mkdirOne, hp]
    · simp only [mkdirOne, hp]
    · exact absurd hp h
    · simp only [mkdirOne, hp]

/-- C198: the outcome is the documented one: `TimeoutError` exactly if the deadline has passed at one of the operations reached,
`FileExistsError` exactly if the parent is not to exist and does, or the target is not to exist and does (or the parent is a file), and
otherwise the path. -/
theorem C198_outcome (fl : Flags) (late : Late) (fs : FS) (hwf : WF fs) (p : Path) :
    (claim fl late fs p).2 = outcome fl late (status fs p.parent.parts.reverse) (status fs p.parts.reverse) p := by
  simp only [claim, outcome]
  by_cases h0 : late 0 = true
  · simp only [h0, if_true]
  · simp only [if_neg h0]
    by_cases hm : status fs p.parent.parts.reverse = .missing
    · have h1 := mkdirs_missing fs hwf fl.dirExistOk _ hm
      have h2 := mkdirs_spec fs fl.dirExistOk p.parent.parts.reverse
      rcases hr : mkdirs fs fl.dirExistOk p.parent.parts.reverse with ⟨fs1, r⟩
      rw [hr] at h1 h2
      simp only at h1
      subst h1
      simp only [hm]
      by_cases hl : late 1 = true
      · simp [hl]
      · simp only [if_neg hl]
        rcases hrev : p.parts.reverse with _ | ⟨n, up⟩
        · have : p.parts = [] := by simpa using hrev
          simp [Path.parent, this, status] at hm
        · have hup : p.parent.parts.reverse = up := by
            simp only [Path.parent]
            have : p.parts = up.reverse ++ [n] := by
              have := congrArg List.reverse hrev
              simpa using this
            rw [this]; simp
          rw [hup] at hm h2
          have hd : status fs1 up = .dir := h2.2 rfl
          have hnone : fs1 (n :: up) = none := by
            rcases h2.1 (n :: up) with g | ⟨_, _, g⟩
            · have g' : fs1 (n :: up) = fs (n :: up) := g
              rw [g']
              cases hf : fs (n :: up) with
              | none => rfl
              | some k => have := hwf n up (by rw [hf]; simp); rw [hm] at this; cases this
            · exact absurd g not_suffix_cons
          have hst : status fs1 (n :: up) = .missing := by simp only [status, hd, hnone, entry]
          have hst0 : status fs (n :: up) = .missing := by simp only [status, hm]
          simp [checkFree, present, hrev, hst, hst0]
    · rw [mkdirs_present fs _ _ hm]
      rcases status_cases (status fs p.parent.parts.reverse) with hp | hp | hp | hp
      · cases hd : fl.dirExistOk with
        | false => simp [hp]
        | true =>
          simp only [if_true, hp]
          by_cases hl : late 1 = true
          · simp [hl]
          · simp only [if_neg hl, checkFree, present]
            rcases status_cases (status fs p.parts.reverse) with hh | hh | hh | hh <;> cases hf : fl.fileExistOk <;> simp [hf, hh]
      · simp [hp]
      · exact absurd hp hm
      · simp [hp]

/-- A file system with the directory /data and the file /data/x. -/
def sampleFS : FS := fun q => if q = ["data".toList] then some .dir else if q = ["x".toList, "data".toList] then some .file else none

theorem sampleFS_wf : WF sampleFS := by
  intro n up h
  simp only [sampleFS] at h
  split at h
  · rename_i e; cases e; rfl
  · split at h
    · rename_i e; cases e; decide +kernel
    · exact absurd rfl h

example : (acreatePath plainArgs ⟨true, false⟩ (fun _ => false) sampleFS ⟨true, ["data".toList]⟩ "a/b/y".toList).2
    = .ok ⟨true, ["data".toList, "a".toList, "b".toList, "y".toList]⟩ := by decide +kernel
example : (acreatePath plainArgs ⟨true, false⟩ (fun _ => false) sampleFS ⟨true, ["data".toList]⟩ "a/b/y".toList).1 ["a".toList, "data".toList]
    = some .dir := by decide +kernel
example : (acreatePath plainArgs ⟨true, false⟩ (fun _ => false) sampleFS ⟨true, ["data".toList]⟩ "x".toList).2 = .error .fileExists := by
  decide +kernel

end Verif.CreatePath
