import Verif.Model.JsonDump
import Verif.Props.Json

set_option linter.unusedSectionVars false
set_option linter.unusedSimpArgs false
set_option linter.unusedVariables false

/-!
# C148 – C152: JSON lines, deterministic sets, safe fallback
-/

namespace Verif.JsonDump

open Json

/-! ## C148, C149: one document per line -/

theorem hexDigit_ne (n : Nat) (h : n < 16) : hexDigit n ≠ '\n' := by
  have : ∀ n, n < 16 → hexDigit n ≠ '\n' := by decide
  exact this n h

theorem escape_noNL (c : Char) : '\n' ∉ escape c := by
  unfold escape
  repeat' split
  all_goals first
    | decide
    | next hc =>
        have h1 := hexDigit_ne (c.toNat / 16) (by omega)
        have h2 := hexDigit_ne (c.toNat % 16) (by omega)
        simp [Ne.symm h1, Ne.symm h2]
    | (simp only [List.mem_singleton]; intro e; subst e; contradiction)

theorem writeStr_noNL (s : Str) : '\n' ∉ writeStr s := by
  unfold writeStr
  intro h
  simp only [List.mem_cons, List.mem_append, List.mem_flatMap, List.not_mem_nil, or_false] at h
  rcases h with h | ⟨c, _, h⟩ | h
  · exact absurd h (by decide)
  · exact escape_noNL c h
  · exact absurd h (by decide)

theorem gap_compact (d : Nat) : gap false d = [] := rfl

mutual
theorem write_noNL (d : Nat) : ∀ v : J, '\n' ∉ write false d v
  | .token t h => by
    simp only [write]
    intro hm
    have := (token_chars h).2 _ hm
    exact absurd this (by decide)
  | .str s => by simpa only [write] using writeStr_noNL s
  | .arr [] => by simp [write]
  | .arr (v :: l) => by
    have h1 := write_noNL (d + 1) v
    have h2 := writeItems_noNL (d + 1) l
    simp [write, gap_compact, h1, h2]
  | .obj [] => by simp [write]
  | .obj ((k, v) :: l) => by
    have h0 := writeStr_noNL k
    have h1 := write_noNL (d + 1) v
    have h2 := writeFields_noNL (d + 1) l
    simp [write, gap_compact, colon, h0, h1, h2]
theorem writeItems_noNL (d : Nat) : ∀ l : List J, '\n' ∉ writeItems false d l
  | [] => by simp [writeItems]
  | v :: l => by
    have h1 := write_noNL d v
    have h2 := writeItems_noNL d l
    simp [writeItems, gap_compact, h1, h2]
theorem writeFields_noNL (d : Nat) : ∀ l : List (Str × J), '\n' ∉ writeFields false d l
  | [] => by simp [writeFields]
  | (k, v) :: l => by
    have h0 := writeStr_noNL k
    have h1 := write_noNL d v
    have h2 := writeFields_noNL d l
    simp [writeFields, gap_compact, colon, h0, h1, h2]
end

/-- The lines of a text: the pieces between line breaks (one more than there are breaks). -/
def splitLines : Str → List Str
  | [] => [[]]
  | c :: s =>
    if c = '\n' then [] :: splitLines s
    else
      match splitLines s with
      | [] => [[c]]
      | l :: ls => (c :: l) :: ls

theorem splitLines_line (l : Str) (h : '\n' ∉ l) (rest : Str) : splitLines (l ++ '\n' :: rest) = l :: splitLines rest := by
  induction l with
  | nil => simp [splitLines]
  | cons c l ih =>
    have hc : c ≠ '\n' := fun e => h (by simp [e])
    simp [splitLines, hc, ih (fun hm => h (by simp [hm]))]

theorem splitLines_lines (ls : List Str) (h : ∀ l ∈ ls, '\n' ∉ l) : splitLines (ls.map (· ++ ['\n'])).flatten = ls ++ [[]] := by
  induction ls with
  | nil => rfl
  | cons l ls ih =>
    have := splitLines_line l (h l List.mem_cons_self) (ls.map (· ++ ['\n'])).flatten
    simp only [List.map_cons, List.flatten_cons, List.append_assoc, List.singleton_append, List.cons_append, List.nil_append] at this ⊢
    rw [this, ih (fun l' hl' => h l' (List.mem_cons_of_mem _ hl'))]

theorem linesLoop_ok {β : Type} (enc : β → Option J) (v : β → J) (o : Opts) (hn : o.newline = true) (xs ys : List β)
    (h : ∀ x ∈ xs, enc x = some (v x)) :
    linesLoop enc o (xs ++ ys) = (xs.map (fun x => write o.indent 0 (v x) ++ ['\n']) ++ (linesLoop enc o ys).1, (linesLoop enc o ys).2) := by
  induction xs with
  | nil => rfl
  | cons x xs ih =>
    have := ih (fun y hy => h y (List.mem_cons_of_mem _ hy))
    simp only [List.cons_append, linesLoop, dumps, h x List.mem_cons_self, hn, if_true, this, List.map_cons]

/-- **C148**.  Without explicit options, if every record can be converted, the stream has exactly one line per record, in order, and reading
each line as JSON gives the records back (nothing follows the last line break); every chunk is one line with its line break. -/
theorem C148_lines {β : Type} (enc : β → Option J) (v : β → J) (xs : List β) (h : ∀ x ∈ xs, enc x = some (v x)) :
    ∃ chunks, jsonLines enc none xs = (chunks, false) ∧ chunks.length = xs.length ∧
      (∀ c ∈ chunks, ∃ l, c = l ++ ['\n'] ∧ '\n' ∉ l) ∧
      (splitLines chunks.flatten).map loads = xs.map (fun x => some (v x)) ++ [none] := by
  have hl := linesLoop_ok enc v ⟨false, true⟩ rfl xs [] h
  rw [List.append_nil] at hl
  refine ⟨xs.map (fun x => write false 0 (v x) ++ ['\n']), ?_, by simp, ?_, ?_⟩
  · simp only [jsonLines, lineOpts, hl, linesLoop, List.append_nil]
  · intro c hc
    obtain ⟨x, _, rfl⟩ := List.mem_map.1 hc
    exact ⟨_, rfl, write_noNL 0 (v x)⟩
  · have := splitLines_lines (xs.map (fun x => write false 0 (v x))) (by
      intro l hl'
      obtain ⟨x, _, rfl⟩ := List.mem_map.1 hl'
      exact write_noNL 0 (v x))
    rw [List.map_map] at this
    simp only [Function.comp_def] at this
    rw [this, List.map_append, List.map_map]
    congr 1
    · refine List.map_congr_left (fun x hx => ?_)
      have := C218_round_trip false (v x) [] [] allWs_nil allWs_nil
      rwa [List.nil_append, List.append_nil] at this

/-- **C148**.  If a record cannot be converted, exactly the lines of the records before it have been produced. -/
theorem C148_prefix {β : Type} (enc : β → Option J) (v : β → J) (pre : List β) (x : β) (post : List β) (h : ∀ y ∈ pre, enc y = some (v y))
    (hx : enc x = none) : jsonLines enc none (pre ++ x :: post) = (pre.map (fun y => write false 0 (v y) ++ ['\n']), true) := by
  have hl := linesLoop_ok enc v ⟨false, true⟩ rfl pre (x :: post) h
  simp only [jsonLines, lineOpts, hl, linesLoop, dumps, hx, List.append_nil]

/-- **C149** (chunks).  With any options, indented or not, the chunks are one per record, in order, and each is read back as its record. -/
theorem C149_chunks {β : Type} (enc : β → Option J) (v : β → J) (options : Option Opts) (xs : List β) (h : ∀ x ∈ xs, enc x = some (v x)) :
    (jsonLines enc options xs).2 = false ∧ (jsonLines enc options xs).1.map loads = xs.map (fun x => some (v x)) := by
  have hn : (lineOpts options).newline = true := by cases options <;> rfl
  have hl := linesLoop_ok enc v (lineOpts options) hn xs [] h
  rw [List.append_nil] at hl
  unfold jsonLines
  rw [hl]
  refine ⟨rfl, ?_⟩
  simp only [linesLoop, List.append_nil, List.map_map]
  refine List.map_congr_left (fun x hx => ?_)
  have := C218_round_trip (lineOpts options).indent (v x) [] ['\n'] allWs_nil (by intro c hc; rw [List.mem_singleton.1 hc]; exact Or.inr (Or.inl rfl))
  simpa using this

/-- **C149** (partial).  Whatever options are given, every chunk ends with a line break; without indentation the stream is the default one.
Missing: with `OPT_INDENT_2` a record spreads over several lines, see `C149_indent_violation`. -/
theorem C149_options_partial {β : Type} (enc : β → Option J) (o : Opts) (xs : List β) :
    (∀ c ∈ (jsonLines enc (some o) xs).1, ∃ l, c = l ++ ['\n']) ∧
    (o.indent = false → jsonLines enc (some o) xs = jsonLines enc none xs) := by
  constructor
  · unfold jsonLines
    induction xs with
    | nil => simp [linesLoop]
    | cons x xs ih =>
      intro c hc
      simp only [linesLoop, dumps] at hc
      cases he : enc x with
      | none => rw [he] at hc; simp at hc
      | some w =>
        rw [he] at hc
        simp only [lineOpts, if_true, List.mem_cons] at hc
        rcases hc with rfl | hc
        · exact ⟨_, rfl⟩
        · exact ih c hc
  · intro h
    obtain ⟨i, n⟩ := o
    simp only at h
    subst h
    rfl

/-- One record, a list with one number. -/
def oneRecord : J := .arr [.token ['1'] (by decide)]

/-- **C149 is false**: with `OPT_INDENT_2` a single record gives three lines. -/
theorem C149_indent_violation :
    (splitLines (jsonLines (fun _ : Unit => some oneRecord) (some ⟨true, false⟩) [()]).1.flatten) = [['['], [' ', ' ', '1'], [']'], []] := by
  rfl

example : splitLines (jsonLines (fun v : J => some v) none [.str ['a', '\n', '"'], .obj [(['k'], oneRecord)]]).1.flatten =
    ["\"a\\n\\\"\"".toList, "{\"k\":[1]}".toList, []] := by
  rfl

/-! ## C150, C151: deterministic sets -/

theorem leStr_refl : ∀ s, leStr s s = true
  | [] => rfl
  | a :: s => by simp [leStr, leStr_refl s]

theorem leStr_total : ∀ s t, leStr s t = true ∨ leStr t s = true
  | [], _ => Or.inl rfl
  | _ :: _, [] => Or.inr rfl
  | a :: s, b :: t => by
    simp only [leStr]
    by_cases h1 : a.toNat < b.toNat
    · rw [if_pos h1]; exact Or.inl rfl
    · by_cases h2 : b.toNat < a.toNat
      · right; rw [if_pos h2]
      · rw [if_neg h1, if_neg h2, if_neg h2, if_neg h1]; exact leStr_total s t

theorem toNat_inj {a b : Char} (h : a.toNat = b.toNat) : a = b := Char.toNat_inj.mp h

theorem leStr_antisymm : ∀ s t, leStr s t = true → leStr t s = true → s = t
  | [], [], _, _ => rfl
  | [], _ :: _, _, h => by simp [leStr] at h
  | _ :: _, [], h, _ => by simp [leStr] at h
  | a :: s, b :: t, h1, h2 => by
    simp only [leStr] at h1 h2
    by_cases c1 : a.toNat < b.toNat
    · rw [if_neg (by omega), if_pos c1] at h2; cases h2
    · by_cases c2 : b.toNat < a.toNat
      · rw [if_neg c1, if_pos c2] at h1; cases h1
      · rw [if_neg c1, if_neg c2] at h1
        rw [if_neg c2, if_neg c1] at h2
        rw [toNat_inj (show a.toNat = b.toNat by omega), leStr_antisymm s t h1 h2]

theorem leStr_trans : ∀ s t u, leStr s t = true → leStr t u = true → leStr s u = true
  | [], _, _, _, _ => rfl
  | _ :: _, [], _, h, _ => by simp [leStr] at h
  | _ :: _, _ :: _, [], _, h => by simp [leStr] at h
  | a :: s, b :: t, c :: u, h1, h2 => by
    simp only [leStr] at h1 h2 ⊢
    by_cases c1 : a.toNat < b.toNat
    · by_cases c2 : c.toNat < b.toNat
      · rw [if_neg (by omega), if_pos c2] at h2; cases h2
      · rw [if_pos (by omega)]
    · by_cases c1' : b.toNat < a.toNat
      · rw [if_neg c1, if_pos c1'] at h1; cases h1
      · rw [if_neg c1, if_neg c1'] at h1
        by_cases c2 : b.toNat < c.toNat
        · rw [if_pos (by omega)]
        · by_cases c3 : c.toNat < b.toNat
          · rw [if_neg c2, if_pos c3] at h2; cases h2
          · rw [if_neg c2, if_neg c3] at h2
            rw [if_neg (by omega), if_neg (by omega)]
            exact leStr_trans s t u h1 h2

theorem leKey_total (a b : Str × Str) : leKey a b = true ∨ leKey b a = true := by
  unfold leKey
  by_cases h : a.1 = b.1
  · rw [if_pos h, if_pos h.symm]; exact leStr_total _ _
  · rw [if_neg h, if_neg (Ne.symm h)]; exact leStr_total _ _

theorem leKey_trans (a b c : Str × Str) (h1 : leKey a b = true) (h2 : leKey b c = true) : leKey a c = true := by
  unfold leKey at *
  by_cases e1 : a.1 = b.1
  · rw [if_pos e1] at h1
    by_cases e2 : b.1 = c.1
    · rw [if_pos e2] at h2
      rw [if_pos (e1.trans e2)]
      exact leStr_trans _ _ _ h1 h2
    · rw [if_neg e2] at h2
      rw [if_neg (by rw [e1]; exact e2), e1]
      exact h2
  · rw [if_neg e1] at h1
    by_cases e2 : b.1 = c.1
    · rw [if_neg (by rw [← e2]; exact e1), ← e2]
      exact h1
    · rw [if_neg e2] at h2
      by_cases e3 : a.1 = c.1
      · rw [e3] at h1 e1
        exact absurd (leStr_antisymm _ _ h1 h2) e1
      · rw [if_neg e3]
        exact leStr_trans _ _ _ h1 h2

theorem leKey_antisymm (a b : Str × Str) (h1 : leKey a b = true) (h2 : leKey b a = true) : a = b := by
  unfold leKey at *
  by_cases e1 : a.1 = b.1
  · rw [if_pos e1] at h1
    rw [if_pos e1.symm] at h2
    exact Prod.ext e1 (leStr_antisymm _ _ h1 h2)
  · rw [if_neg e1] at h1
    rw [if_neg (Ne.symm e1)] at h2
    exact absurd (leStr_antisymm _ _ h1 h2) e1

/-- **C150**.  If different members of the set differ in class name or normalised text, the output does not depend on the iteration order;
it always has exactly the members of the set.
Not covered: members with equal class name and text, see `C150_tie_limit`. -/
theorem C150_order {α : Type} (cls text : α → Str) (l l' : List α) (hp : l.Perm l') :
    (stableSorted cls text l).Perm l ∧
    ((∀ x ∈ l, ∀ y ∈ l, cls x = cls y → normalize (text x) = normalize (text y) → x = y) → stableSorted cls text l = stableSorted cls text l') := by
  refine ⟨sortBy_perm _ _, ?_⟩
  intro h
  have tr : ∀ a b c : α, leKey (cls a, normalize (text a)) (cls b, normalize (text b)) = true →
      leKey (cls b, normalize (text b)) (cls c, normalize (text c)) = true → leKey (cls a, normalize (text a)) (cls c, normalize (text c)) = true :=
    fun a b c h1 h2 => leKey_trans _ _ _ h1 h2
  have to : ∀ a b : α, (leKey (cls a, normalize (text a)) (cls b, normalize (text b)) || leKey (cls b, normalize (text b)) (cls a, normalize (text a))) = true := by
    intro a b
    rw [Bool.or_eq_true]
    exact leKey_total _ _
  refine List.Perm.eq_of_pairwise ?_ (sortBy_sorted _ tr to l) (sortBy_sorted _ tr to l')
    (((sortBy_perm _ l).trans hp).trans (sortBy_perm _ l').symm)
  intro a b ha hb h1 h2
  have e := leKey_antisymm _ _ h1 h2
  have ha' : a ∈ l := (sortBy_perm _ l).mem_iff.1 ha
  have hb' : b ∈ l := hp.mem_iff.2 ((sortBy_perm _ l').mem_iff.1 hb)
  exact h a ha' b hb' (congrArg Prod.fst e) (congrArg Prod.snd e)

/-- Two objects of one class with the default representation. -/
def twoText (b : Bool) : Str := if b then "<A at 0x1f>".toList else "<A at 0x2e>".toList

/-- Outside the domain of C150: two such objects come out in iteration order. -/
theorem C150_tie_limit :
    stableSorted (fun _ => ['A']) twoText [true, false] = [true, false] ∧ stableSorted (fun _ => ['A']) twoText [false, true] = [false, true] := by
  decide

example : stableSorted (fun n : Nat => if n < 5 then ['i'] else ['s']) (fun n => [Char.ofNat (60 - n)]) [1, 7, 3, 6] = [3, 1, 7, 6] ∧
    stableSorted (fun n : Nat => if n < 5 then ['i'] else ['s']) (fun n => [Char.ofNat (60 - n)]) [6, 3, 7, 1] = [3, 1, 7, 6] := by decide

/-! ### Addresses -/

theorem matchAddr_some {s r : Str} (h : matchAddr s = some r) : ∃ c t, isHex c = true ∧ s = atStr ++ c :: t ∧ r = t.dropWhile isHex := by
  unfold matchAddr at h
  split at h
  · next hc =>
    rw [Bool.and_eq_true] at hc
    obtain ⟨h1, h2⟩ := hc
    rw [List.isPrefixOf_iff_prefix] at h1
    obtain ⟨u, rfl⟩ := h1
    injection h with h
    cases u with
    | nil => exact absurd h2 (by decide)
    | cons c t =>
      have h2' : isHex c = true := by simpa [atStr] using h2
      refine ⟨c, t, h2', rfl, ?_⟩
      rw [← h]
      simp [atStr, h2']
  · cases h

theorem matchAddr_at (c : Char) (t : Str) (h : isHex c = true) : matchAddr (atStr ++ c :: t) = some (t.dropWhile isHex) := by
  unfold matchAddr
  rw [if_pos]
  · simp [atStr, h]
  · simp [atStr, h, List.isPrefixOf]

theorem dropWhile_length (p : Char → Bool) (t : Str) : (t.dropWhile p).length ≤ t.length := (List.dropWhile_sublist p).length_le

theorem norm_fuel : ∀ (n m : Nat) (s : Str), s.length ≤ n → s.length ≤ m → norm n s = norm m s := by
  intro n
  induction n with
  | zero =>
    intro m s h1 h2
    have : s = [] := List.length_eq_zero_iff.1 (by omega)
    subst this
    cases m <;> rfl
  | succ n ih =>
    intro m s h1 h2
    cases s with
    | nil => cases m <;> rfl
    | cons c s =>
      cases m with
      | zero => simp at h2
      | succ m =>
        simp only [norm]
        cases hm : matchAddr (c :: s) with
        | none =>
          simp only [List.length_cons] at h1 h2
          simp only
          rw [ih m s (by omega) (by omega)]
        | some r =>
          obtain ⟨d, t, _, he, rfl⟩ := matchAddr_some hm
          have hl := dropWhile_length isHex t
          have : (c :: s).length = t.length + 7 := by rw [he]; simp [atStr]
          simp only
          rw [ih m _ (by omega) (by omega)]

theorem normalize_cons_none {c : Char} {s : Str} (h : matchAddr (c :: s) = none) : normalize (c :: s) = c :: normalize s := by
  unfold normalize
  simp only [List.length_cons, norm, h]

theorem normalize_some {s r : Str} (h : matchAddr s = some r) : normalize s = atStr ++ '?' :: normalize r := by
  obtain ⟨d, t, _, he, hr⟩ := matchAddr_some h
  have hl := dropWhile_length isHex t
  have hlen : s.length = t.length + 7 := by rw [he]; simp [atStr]
  unfold normalize
  cases s with
  | nil => simp at hlen
  | cons c s =>
    simp only [List.length_cons, norm, h]
    rw [norm_fuel s.length r.length r (by rw [hr]; simp only [List.length_cons] at hlen; omega) (Nat.le_refl _)]

/-- A text with an address after `p` is normalised the same whatever the address. -/
theorem normalize_addr (t : Str) (ht : ∀ c, t.head? = some c → isHex c = false) (x y : Char) (h1 h2 : Str) (hx : isHex x = true) (hy : isHex y = true)
    (a1 : ∀ c ∈ h1, isHex c = true) (a2 : ∀ c ∈ h2, isHex c = true) :
    ∀ (n : Nat) (p : Str), p.length ≤ n → normalize (p ++ atStr ++ x :: (h1 ++ t)) = normalize (p ++ atStr ++ y :: (h2 ++ t)) := by
  have dw : ∀ h : Str, (∀ c ∈ h, isHex c = true) → (h ++ t).dropWhile isHex = t := by
    intro h ha
    induction h with
    | nil =>
      cases t with
      | nil => rfl
      | cons c t => simp [ht c rfl]
    | cons c h ih => simp [ha c List.mem_cons_self, ih (fun d hd => ha d (List.mem_cons_of_mem _ hd))]
  intro n
  induction n with
  | zero =>
    intro p hp
    have : p = [] := List.length_eq_zero_iff.1 (by omega)
    subst this
    rw [List.nil_append, normalize_some (matchAddr_at x _ hx), normalize_some (matchAddr_at y _ hy), dw h1 a1, dw h2 a2]
  | succ n ih =>
    intro p hp
    cases p with
    | nil => exact ih [] (by simp)
    | cons c p =>
      simp only [List.length_cons] at hp
      -- a match at the head lies within `c :: p`
      have key : ∀ (z : Char) (w : Str), (∃ d q, c :: p = atStr ++ d :: q ∧ isHex d = true) ∨ matchAddr (c :: p ++ atStr ++ z :: w) = none := by
        intro z w
        cases hm : matchAddr (c :: p ++ atStr ++ z :: w) with
        | none => exact Or.inr rfl
        | some r =>
          left
          obtain ⟨d, u, hd, he, _⟩ := matchAddr_some hm
          match p, he with
          | [], he => simp [atStr] at he
          | [_], he => simp [atStr] at he
          | [_, _], he => simp [atStr] at he
          | [_, _, _], he => simp [atStr] at he
          | [_, _, _, _], he => simp [atStr] at he
          | [_, _, _, _, _], he =>
            simp [atStr] at he
            obtain ⟨_, _, _, _, _, _, h7, _⟩ := he
            rw [← h7] at hd
            exact absurd hd (by decide)
          | p1 :: p2 :: p3 :: p4 :: p5 :: p6 :: p, he =>
            simp only [atStr, List.cons_append, List.nil_append] at he
            injection he with e0 he
            injection he with e1 he
            injection he with e2 he
            injection he with e3 he
            injection he with e4 he
            injection he with e5 he
            injection he with e6 he
            subst e0; subst e1; subst e2; subst e3; subst e4; subst e5; subst e6
            exact ⟨_, _, rfl, hd⟩
      rcases key x (h1 ++ t) with ⟨d, q, he, hd⟩ | k1
      · have hlen : p.length + 1 = q.length + 7 := by
          have := congrArg List.length he
          simpa [atStr] using this
        rw [he]
        have e : ∀ (z : Char) (w : Str), normalize (atStr ++ d :: q ++ atStr ++ z :: w) = atStr ++ '?' :: normalize (q.dropWhile isHex ++ atStr ++ z :: w) := by
          intro z w
          have := matchAddr_at d (q ++ atStr ++ z :: w) hd
          rw [show atStr ++ d :: q ++ atStr ++ z :: w = atStr ++ d :: (q ++ atStr ++ z :: w) by simp]
          rw [normalize_some this]
          congr 3
          rw [List.append_assoc, List.append_assoc]
          generalize hv : atStr ++ z :: w = v
          have hvh : v.dropWhile isHex = v := by
            rw [← hv]
            simp only [atStr, List.cons_append, List.dropWhile_cons]
            rw [if_neg (by decide)]
          clear this he hlen
          induction q with
          | nil => simpa using hvh
          | cons b q ihq =>
            simp only [List.cons_append, List.dropWhile_cons]
            split
            · exact ihq
            · rfl
        rw [e, e]
        rw [ih (q.dropWhile isHex) (by have := dropWhile_length isHex q; omega)]
      · rcases key y (h2 ++ t) with ⟨d, q, he, hd⟩ | k2
        · exfalso
          rw [he] at k1
          rw [show atStr ++ d :: q ++ atStr ++ x :: (h1 ++ t) = atStr ++ d :: (q ++ atStr ++ x :: (h1 ++ t)) by simp, matchAddr_at d _ hd] at k1
          cases k1
        · simp only [List.cons_append] at k1 k2 ⊢
          rw [normalize_cons_none k1, normalize_cons_none k2]
          rw [ih p (by omega)]

/-- The hexadecimal digits. -/
def hexDigits : Str := "0123456789abcdefABCDEF".toList

set_option maxRecDepth 20000 in
theorem isHex_iff (c : Char) : isHex c = true ↔ c ∈ hexDigits := by
  have hsmall : ∀ n, n < 128 → (isHex (Char.ofNat n) = true ↔ Char.ofNat n ∈ hexDigits) := by decide +kernel
  by_cases h : c.toNat < 128
  · have := hsmall c.toNat h
    rwa [Char.ofNat_toNat] at this
  · constructor
    · intro hc
      exfalso
      unfold isHex Char.isDigit at hc
      simp only [Bool.or_eq_true, Bool.and_eq_true, decide_eq_true_eq, Char.le_def, UInt32.le_iff_toNat_le, ge_iff_le] at hc
      have e : c.val.toNat = c.toNat := rfl
      have e1 : 'f'.val.toNat = 102 := rfl
      have e2 : 'F'.val.toNat = 70 := rfl
      have e3 : '9'.val.toNat = 57 := rfl
      omega
    · intro hc
      exfalso
      have hall : ∀ d ∈ hexDigits, d.toNat < 128 := by decide
      exact h (hall c hc)

/-- **C151**.  The sort key of a member does not depend on a memory address in its text: replacing the digits after " at 0x" by others changes nothing. -/
theorem C151_address (p t : Str) (ht : ∀ c, t.head? = some c → c ∉ hexDigits) (a b : Str) (ha : a ≠ []) (hb : b ≠ [])
    (ha' : ∀ c ∈ a, c ∈ hexDigits) (hb' : ∀ c ∈ b, c ∈ hexDigits) :
    normalize (p ++ " at 0x".toList ++ a ++ t) = normalize (p ++ " at 0x".toList ++ b ++ t) := by
  have hat : " at 0x".toList = atStr := rfl
  rw [hat]
  have ht' : ∀ c, t.head? = some c → isHex c = false := by
    intro c hc
    have := ht c hc
    rw [← isHex_iff] at this
    simpa using this
  have ha'' : ∀ c ∈ a, isHex c = true := fun c hc => (isHex_iff c).2 (ha' c hc)
  have hb'' : ∀ c ∈ b, isHex c = true := fun c hc => (isHex_iff c).2 (hb' c hc)
  clear ha' hb' ht
  cases a with
  | nil => exact absurd rfl ha
  | cons x a =>
    cases b with
    | nil => exact absurd rfl hb
    | cons y b =>
      have := normalize_addr t ht' x y a b (ha'' x List.mem_cons_self) (hb'' y List.mem_cons_self)
        (fun c hc => ha'' c (List.mem_cons_of_mem _ hc)) (fun c hc => hb'' c (List.mem_cons_of_mem _ hc)) p.length p (Nat.le_refl _)
      simpa using this

/-- A text without an address is its own key. -/
theorem C151_plain : ∀ (s : Str), (∀ p c t, s = p ++ " at 0x".toList ++ c :: t → c ∉ hexDigits) → normalize s = s
  | [], _ => rfl
  | c :: s, h => by
    have hm : matchAddr (c :: s) = none := by
      cases hm : matchAddr (c :: s) with
      | none => rfl
      | some r =>
        obtain ⟨d, t, hd, he, _⟩ := matchAddr_some hm
        exact absurd ((isHex_iff d).1 hd) (h [] d t he)
    rw [normalize_cons_none hm, C151_plain s (fun p d t he => h (c :: p) d t (by rw [he]; simp))]

example : normalize "<A at 0x7f3a> <B at 0xG>".toList = "<A at 0x?> <B at 0xG>".toList := by decide

/-! ## C152: the safe fallback -/

/-- The text that replaces what is cut off: the number of characters above the limit. -/
def cutText (limit : Int) (s : Str) : Str := "...(+".toList ++ ((toString ((s.length : Int) - limit)).toList ++ " chars)".toList)

/-- **C152** (partial, exact).  For an object without a serializer: the result of `model_dump()`, else of `dict()`; else, without safe fallback, `TypeError`;
with it, the message of an exception, or the clipped text.  It raises exactly if the needed text cannot be computed, or (`ValueError`) if the limit is
not positive or smaller than the mark for the cut. -/
theorem C152_exact_partial {ν : Type} (shorten : Int → Str → Str → Str) (limit : Int) (o : Obj ν) :
    (∀ b v, o.modelDump = some (some v) → fallback shorten b limit o = .ok (.value v)) ∧
    (∀ b v, (∀ u, o.modelDump ≠ some (some u)) → o.dict = some (some v) → fallback shorten b limit o = .ok (.value v)) ∧
    ((∀ u, o.modelDump ≠ some (some u)) → (∀ u, o.dict ≠ some (some u)) →
      fallback shorten false limit o = .error .typeError ∧
      (o.isException = true → ∀ m, o.str = some m → fallback shorten true limit o = .ok (.payload m)) ∧
      (o.isException = true → o.str = none → fallback shorten true limit o = .error .runtimeError) ∧
      (o.isException = false → o.repr = none → fallback shorten true limit o = .error .runtimeError) ∧
      (o.isException = false → ∀ r, o.repr = some r →
        (0 < limit ∧ ((cutText limit r).length : Int) ≤ limit → fallback shorten true limit o = .ok (.text (shorten limit (cutText limit r) r))) ∧
        (¬ (0 < limit ∧ ((cutText limit r).length : Int) ≤ limit) → fallback shorten true limit o = .error .valueError))) := by
  have hp : ∀ r, placeholder limit r = cutText limit r := by
    intro r
    unfold placeholder cutText
    rw [List.append_assoc]
  have hfall : ∀ b, (∀ u, o.modelDump ≠ some (some u)) → (∀ u, o.dict ≠ some (some u)) →
      fallback shorten b limit o = if b then safe shorten limit o else .error .typeError := by
    intro b h1 h2
    unfold fallback
    split
    · next v hv => exact absurd hv (h1 v)
    · split
      · next v hv => exact absurd hv (h2 v)
      · rfl
  refine ⟨fun b v h => (by unfold fallback; rw [h]), fun b v h1 h2 => ?_, fun h1 h2 => ⟨?_, ?_, ?_, ?_, ?_⟩⟩
  · unfold fallback
    split
    · next v hv => exact absurd hv (h1 v)
    · rw [h2]
  · rw [hfall false h1 h2]; rfl
  · intro he m hm
    rw [hfall true h1 h2]
    simp only [if_true, safe, he, hm, orRaise, mapOk]
  · intro he hm
    rw [hfall true h1 h2]
    simp only [if_true, safe, he, hm, orRaise, mapOk]
  · intro he hm
    rw [hfall true h1 h2]
    simp only [if_true, safe, he, hm, orRaise, mapOk, Bool.false_eq_true, if_false]
  · intro he r hr
    rw [hfall true h1 h2]
    simp only [if_true, safe, he, hr, orRaise, Bool.false_eq_true, if_false, clip, hp]
    constructor
    · rintro ⟨p1, p2⟩
      rw [if_neg (by omega), if_neg (by omega)]
      rfl
    · intro hn
      by_cases h0 : limit ≤ 0
      · rw [if_pos h0]; rfl
      · rw [if_neg h0, if_pos (by
          apply Classical.byContradiction
          intro hc
          exact hn ⟨by omega, by omega⟩)]
        rfl

/-- **C152** (partial).  With `safe_fallback`, an object whose text can be computed and whose placeholder fits never raises; the text is at most
`fallback_clip` characters long if `textwrap.shorten` keeps its width.
Missing: smaller `fallback_clip` and objects whose `repr` raises, see the violations. -/
theorem C152_safe_partial {ν : Type} (shorten : Int → Str → Str → Str) (hs : ∀ w p s, (p.length : Int) ≤ w → ((shorten w p s).length : Int) ≤ w)
    (limit : Int) (o : Obj ν) (hr : ∃ r, o.repr = some r ∧ ((placeholder limit r).length : Int) ≤ limit) (hstr : ∃ m, o.str = some m) :
    ∃ out, fallback shorten true limit o = .ok out ∧ ∀ s, out = .text s → (s.length : Int) ≤ limit := by
  obtain ⟨r, hr1, hr2⟩ := hr
  obtain ⟨m, hm⟩ := hstr
  have hpos : ¬ limit ≤ 0 := by
    have : 0 < (placeholder limit r).length := by simp [placeholder]
    omega
  have hsafe : ∃ out, safe shorten limit o = .ok out ∧ ∀ s, out = .text s → (s.length : Int) ≤ limit := by
    unfold safe
    split
    · refine ⟨.payload m, by simp [hm, orRaise, mapOk], ?_⟩
      intro s h
      cases h
    · refine ⟨.text (shorten limit (placeholder limit r) r), ?_, ?_⟩
      · simp only [hr1, orRaise, clip, if_neg hpos]
        rw [if_neg (by omega)]
        rfl
      · intro s h
        injection h with h
        subst h
        exact hs _ _ _ hr2
  unfold fallback
  split
  · exact ⟨_, rfl, fun s h => by cases h⟩
  · split
    · exact ⟨_, rfl, fun s h => by cases h⟩
    · simpa using hsafe

/-- **C152 is false**: with `fallback_clip=10` every object that is not an exception and has no `model_dump` or `dict` raises ValueError, however short its text. -/
theorem C152_clip_violation {ν : Type} (shorten : Int → Str → Str → Str) (s : Str) :
    fallback shorten true 10 (⟨false, none, none, some s, some s⟩ : Obj ν) = .error .valueError := by
  have h : ((placeholder 10 s).length : Int) > 10 := by
    simp only [placeholder, List.length_append]
    have h1 : "...(+".toList.length = 5 := by decide
    have h2 : " chars)".toList.length = 7 := by decide
    omega
  simp only [fallback, if_true, safe, orRaise, clip]
  simp [h, mapOk]

/-- **C152 is false**: an object whose `repr` raises makes the fallback raise. -/
theorem C152_repr_violation {ν : Type} (shorten : Int → Str → Str → Str) :
    fallback shorten true 2048 (⟨false, none, none, none, none⟩ : Obj ν) = .error .runtimeError := rfl

example : ((placeholder 2048 "<A>".toList).length : Int) ≤ 2048 := by decide

end Verif.JsonDump
