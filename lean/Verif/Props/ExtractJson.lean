import Verif.Model.FuzzyJson

set_option linter.unusedSectionVars false
set_option linter.unusedSimpArgs false
set_option linter.unusedVariables false

namespace Verif.FuzzyJson

/-! ## C127: `extract_json` -/

/-- A fenced block with the text after it; the content is `core` with whitespace around. -/
structure Block where
  pre : Str
  core : Str
  post : Str
  after : Str

/-- A document: text, then fenced blocks each followed by text. -/
def document : Str → List Block → Str
  | p, [] => p
  | p, b :: bs => p ++ ("```json".toList ++ ((b.pre ++ b.core ++ b.post) ++ ("```".toList ++ document b.after bs)))

/-- Conditions on a block: the following text has no opening fence, the content has no backtick, and around the core there is whitespace only. -/
structure GoodBlock (b : Block) : Prop where
  pre : ∀ c ∈ b.pre, isSpace c = true
  post : ∀ c ∈ b.post, isSpace c = true
  first : ∀ c ∈ b.core.head?, isSpace c = false
  last : ∀ c ∈ b.core.getLast?, isSpace c = false
  tick : '`' ∉ b.core
  text : ¬ "```json".toList <:+: b.after

theorem skipWs_pre : ∀ (w s : Str), (∀ c ∈ w, isSpace c = true) → skipWs (w ++ s) = skipWs s
  | [], s, _ => rfl
  | c :: w, s, h => by
    rw [List.cons_append, skipWs, if_pos (h c List.mem_cons_self)]
    exact skipWs_pre w s (fun x hx => h x (List.mem_cons_of_mem _ hx))

theorem skipWs_head (s : Str) (h : ∀ c ∈ s.head?, isSpace c = false) : skipWs s = s := by
  cases s with
  | nil => rfl
  | cons c s => rw [skipWs, if_neg (by rw [h c (by simp)]; exact Bool.false_ne_true)]

theorem strip_core (w core w' : Str) (h1 : ∀ c ∈ w, isSpace c = true) (h2 : ∀ c ∈ w', isSpace c = true)
    (h3 : ∀ c ∈ core.head?, isSpace c = false) (h4 : ∀ c ∈ core.getLast?, isSpace c = false) : strip (w ++ core ++ w') = core := by
  have hrev : ∀ c ∈ w'.reverse, isSpace c = true := fun c hc => h2 c (List.mem_reverse.1 hc)
  simp only [strip, List.append_assoc]
  rw [skipWs_pre w _ h1]
  cases core with
  | nil =>
    have : skipWs ([] ++ w') = [] := by
      have := skipWs_pre w' [] h2
      rw [List.append_nil] at this
      exact this
    rw [this]; rfl
  | cons c core =>
    rw [skipWs_head (c :: core ++ w') (by intro x hx; exact h3 x (by simpa using hx))]
    rw [List.reverse_append, skipWs_pre _ _ hrev, skipWs_head, List.reverse_reverse]
    intro x hx
    rw [List.head?_reverse] at hx
    exact h4 x hx

theorem splitOn_none {p : Str} : ∀ {s : Str}, p ≠ [] → ¬ p <:+: s → splitOn p s = none
  | [], hp, _ => by
    simp only [splitOn]
    rw [if_neg (by simpa using hp)]
  | c :: s, hp, h => by
    rw [splitOn, if_neg, splitOn_none hp]
    · rfl
    · exact fun hi => h (hi.trans (List.suffix_cons c s).isInfix)
    · intro e; exact h (List.isPrefixOf_iff_prefix.1 e).isInfix

theorem isPrefixOf_cons_ne (a b : Char) (l s : Str) (h : a ≠ b) : (a :: l).isPrefixOf (b :: s) = false := by
  simp [List.isPrefixOf, h]

theorem splitOn_opener (r : Str) : ∀ (p : Str), ¬ opener <:+: p → splitOn opener (p ++ (opener ++ r)) = some (p, r)
  | [], _ => by
    have h : opener.isPrefixOf (opener ++ r) = true := by simp [opener, List.isPrefixOf]
    simp only [opener, List.cons_append, List.nil_append] at h ⊢
    rw [splitOn, if_pos h]
    rfl
  | c :: p, h => by
    have hp : ¬ opener <:+: p := fun hi => h (hi.trans (List.suffix_cons c p).isInfix)
    have hn : opener.isPrefixOf (c :: (p ++ (opener ++ r))) = false := by
      cases hb : opener.isPrefixOf (c :: (p ++ (opener ++ r))) with
      | false => rfl
      | true =>
        exfalso
        rcases p with _ | ⟨a1, _ | ⟨a2, _ | ⟨a3, _ | ⟨a4, _ | ⟨a5, _ | ⟨a6, p⟩⟩⟩⟩⟩⟩ <;>
          simp [opener, List.isPrefixOf] at hb
        apply h
        obtain ⟨rfl, rfl, rfl, rfl, rfl, rfl, rfl⟩ := hb
        exact ⟨[], p, by simp [opener]⟩
    rw [List.cons_append, splitOn, if_neg (by rw [hn]; exact Bool.false_ne_true), splitOn_opener r p hp]
    rfl

theorem splitOn_fence (r : Str) : ∀ (p : Str), '`' ∉ p → splitOn fence (p ++ (fence ++ r)) = some (p, r)
  | [], _ => by
    have h : fence.isPrefixOf (fence ++ r) = true := by simp [fence, List.isPrefixOf]
    simp only [fence, List.cons_append, List.nil_append] at h ⊢
    rw [splitOn, if_pos h]
    rfl
  | c :: p, h => by
    simp only [List.mem_cons, not_or] at h
    have hn : fence.isPrefixOf (c :: (p ++ (fence ++ r))) = false := isPrefixOf_cons_ne _ _ _ _ h.1
    rw [List.cons_append, splitOn, if_neg (by rw [hn]; exact Bool.false_ne_true), splitOn_fence r p h.2]
    rfl

theorem blocks_document : ∀ (bs : List Block) (p : Str) (n : Nat), ¬ opener <:+: p → (∀ b ∈ bs, GoodBlock b) → bs.length ≤ n →
    blocks n (document p bs) = bs.map Block.core
  | [], p, n, hp, _, _ => by
    cases n with
    | zero => rfl
    | succ n =>
      simp only [blocks, document, List.map_nil]
      rw [splitOn_none (by simp [opener]) hp]
  | b :: bs, p, n, hp, hg, hn => by
    cases n with
    | zero => simp at hn
    | succ n =>
      have g := hg b List.mem_cons_self
      have ht : '`' ∉ b.pre ++ b.core ++ b.post := by
        intro hm
        rcases List.mem_append.1 hm with hm | hm
        · rcases List.mem_append.1 hm with hm | hm
          · exact absurd (g.pre _ hm) (by decide)
          · exact g.tick hm
        · exact absurd (g.post _ hm) (by decide)
      have h1 := splitOn_opener ((b.pre ++ b.core ++ b.post) ++ (fence ++ document b.after bs)) p hp
      have h2 := splitOn_fence (document b.after bs) (b.pre ++ b.core ++ b.post) ht
      have ed : document p (b :: bs) = p ++ (opener ++ ((b.pre ++ b.core ++ b.post) ++ (fence ++ document b.after bs))) := rfl
      rw [ed]
      simp only [blocks, h1, h2, List.map_cons]
      rw [strip_core b.pre b.core b.post g.pre g.post g.first g.last]
      rw [blocks_document bs b.after n g.text (fun b hb => hg b (List.mem_cons_of_mem _ hb)) (by simpa using hn)]

theorem document_length : ∀ (bs : List Block) (p : Str), bs.length ≤ (document p bs).length
  | [], p => by simp
  | b :: bs, p => by
    have := document_length bs b.after
    simp only [document, List.length_append, List.length_cons] at this ⊢
    have h1 : ("```".toList).length = 3 := by decide
    omega

variable {β : Type}

/-- Text that parses as a whole gives that value. -/
theorem C127_direct (parse : Str → Option β) (one : Bool) (s : Str) (v : β) (h : parse s = some v) : extractJson parse one s = .one v := by
  simp only [extractJson, h]

/-- Otherwise the contents of all fenced blocks are parsed, stripped and in order; those that do not parse are left out. -/
theorem C127_blocks (parse : Str → Option β) (one : Bool) (p : Str) (bs : List Block) (hp : ¬ "```json".toList <:+: p)
    (hg : ∀ b ∈ bs, GoodBlock b) (hd : parse (document p bs) = none) (hm : one = false ∨ bs.length ≠ 1) :
    extractJson parse one (document p bs) = .many ((bs.map Block.core).filterMap parse) := by
  have hb := blocks_document bs p _ hp hg (document_length bs p)
  simp only [extractJson, hd, hb]
  rcases bs with _ | ⟨b, _ | ⟨b', bs⟩⟩
  · rfl
  · have : one = false := by
      rcases hm with h | h
      · exact h
      · exact absurd rfl h
    subst this
    rfl
  · rfl

/-- A single block, with `return_one_if_single`: its value; an empty list if it does not parse. -/
theorem C127_single (parse : Str → Option β) (p : Str) (b : Block) (hp : ¬ "```json".toList <:+: p) (hg : GoodBlock b) (hd : parse (document p [b]) = none) :
    (∀ v, parse b.core = some v → extractJson parse true (document p [b]) = .one v) ∧
    (parse b.core = none → extractJson parse true (document p [b]) = .many []) := by
  have hb := blocks_document [b] p _ hp (by intro x hx; rw [List.mem_singleton.1 hx]; exact hg) (document_length [b] p)
  have e : extractJson parse true (document p [b]) = extractOne parse b.core := by
    simp only [extractJson, hd, hb]
    rfl
  rw [e]
  exact ⟨fun v h => by simp only [extractOne, h], fun h => by simp only [extractOne, h]⟩

def demoParse (s : Str) : Option Nat := if s = ['1'] then some 1 else if s = ['2'] then some 2 else none

def blk (pre core post after : String) : Block := ⟨pre.toList, core.toList, post.toList, after.toList⟩

example : GoodBlock (blk "\n" "1" "\n" " and ") := ⟨by decide, by decide, by decide, by decide, by decide, by decide⟩
example : extractJson demoParse true (document "see ".toList [blk "\n" "1" "\n" " and ", blk " " "x" "" " and ", blk "" "2" "\n" "."]) = .many [1, 2] := by decide
example : extractJson demoParse true (document "see ".toList [blk "\n" "1" "\n" " and "]) = .one 1 := by decide

/-! ### When nothing is found -/

/-- The document contains a value the parser reads (as a whole or in some block). -/
def Found (parse : Str → Option β) (p : Str) (bs : List Block) : Prop :=
  (∃ v, parse (document p bs) = some v) ∨ ∃ b ∈ bs, ∃ v, parse b.core = some v

/-- Unless the parser yields an empty list, an empty result means that nothing was found.  (A value that is itself an empty list cannot be told from
failure: both are `[]`.) -/
theorem C127_empty_means_nothing (parse : Str → Option β) (one : Bool) (p : Str) (bs : List Block) (hp : ¬ "```json".toList <:+: p)
    (hg : ∀ b ∈ bs, GoodBlock b) : extractJson parse one (document p bs) = .many [] ↔ ¬ Found parse p bs := by
  cases hd : parse (document p bs) with
  | some v =>
    rw [C127_direct parse one _ v hd]
    constructor
    · intro h; cases h
    · intro h; exact absurd (Or.inl ⟨v, hd⟩) h
  | none =>
    have key : (¬ Found parse p bs) ↔ ∀ b ∈ bs, parse b.core = none := by
      constructor
      · intro h b hb
        cases hc : parse b.core with
        | none => rfl
        | some v => exact absurd (Or.inr ⟨b, hb, v, hc⟩) h
      · rintro h (⟨v, hv⟩ | ⟨b, hb, v, hv⟩)
        · rw [hd] at hv; cases hv
        · rw [h b hb] at hv; cases hv
    rw [key]
    by_cases hm : one = false ∨ bs.length ≠ 1
    · rw [C127_blocks parse one p bs hp hg hd hm]
      constructor
      · intro h b hb
        injection h with h
        have := List.filterMap_eq_nil_iff.1 h b.core (List.mem_map_of_mem hb)
        exact this
      · intro h
        congr 1
        apply List.filterMap_eq_nil_iff.2
        intro c hc
        obtain ⟨b, hb, rfl⟩ := List.mem_map.1 hc
        exact h b hb
    · have h1 : one = true := by
        cases one
        · exact absurd (Or.inl rfl) hm
        · rfl
      have h2 : bs.length = 1 := by
        apply Classical.byContradiction
        intro hne; exact hm (Or.inr hne)
      obtain ⟨b, rfl⟩ := List.length_eq_one_iff.1 h2
      subst h1
      obtain ⟨hs, hn⟩ := C127_single parse p b hp (hg b List.mem_cons_self) hd
      constructor
      · intro h x hx
        rw [List.mem_singleton.1 hx]
        cases hc : parse b.core with
        | none => rfl
        | some v => rw [hs v hc] at h; cases h
      · intro h; exact hn (h b List.mem_cons_self)

end Verif.FuzzyJson
