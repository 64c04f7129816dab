import Verif.Py.Sort

/-!
# Model of `src/lionherd_core/libs/string_handlers/_string_similarity.py`

Strings are lists over any type of characters with decidable equality.  Floating-point scores are modelled by exact rationals; `cosine_similarity`, which takes a square root, is
modelled by the square of its value.  `sequence_matcher_similarity` is in `Verif/Model/SeqMatch.lean`.
-/

namespace Verif.Sim

variable {α : Type} [DecidableEq α]

/-! ### Levenshtein -/

/-- The inner loop over `j` for row `i` (`x = a[i-1]`), `_string_similarity.py:184-190`.  Arguments: the remaining characters of `b`, the previous row from `d[i-1][j-1]` on, and `d[i][j-1]`. -/
def rowGo (x : α) : List α → List Nat → Nat → List Nat
  | y :: ys, p0 :: p1 :: ps, left =>
    min (min (p1 + 1) (left + 1)) (p0 + if x = y then 0 else 1) ::
      rowGo x ys (p1 :: ps) (min (min (p1 + 1) (left + 1)) (p0 + if x = y then 0 else 1))
  | _, _, _ => []

/-- Row `i` of the table from row `i - 1`. Serves the model of `_string_similarity.py:159-193`. -/
def nextRow (b : List α) (prev : List Nat) (i : Nat) (x : α) : List Nat := i :: rowGo x b prev i

/-- Rows `i..m` of the table: the last one. Serves `levenshtein` (`_string_similarity.py:159-193`). -/
def rows (b : List α) : List α → Nat → List Nat → List Nat
  | [], _, prev => prev
  | x :: a, i, prev => rows b a (i + 1) (nextRow b prev i x)

/-- `levenshtein_distance`, `_string_similarity.py:159-193`. -/
def levenshtein (a b : List α) : Nat :=
  if a = [] then b.length
  else if b = [] then a.length
  else (rows b a 1 (List.range (b.length + 1))).getLastD 0

/-- `levenshtein_similarity`, `_string_similarity.py:196-215`. -/
def levSim (s t : List α) : Rat :=
  if s = [] ∧ t = [] then 1
  else if s = [] ∨ t = [] then 0
  else 1 - (levenshtein s t : Rat) / (max s.length t.length : Nat)

/-! ### Hamming -/

/-- `hamming_similarity`, `_string_similarity.py:50-67`. -/
def hammingSim (s t : List α) : Rat :=
  if s = [] ∨ t = [] ∨ s.length ≠ t.length then 0
  else (((s.zip t).countP (fun p => decide (p.1 = p.2)) : Nat) : Rat) / (s.length : Nat)

/-! ### Cosine -/

/-- Square of `cosine_similarity`, `_string_similarity.py:31-47`: `len(A & B)² / (len(A) * len(B))`. -/
def cosineSq (s t : List α) : Rat :=
  if s = [] ∨ t = [] then 0
  else (((s.eraseDups.countP (fun c => decide (c ∈ t)) : Nat) : Rat) * ((s.eraseDups.countP (fun c => decide (c ∈ t)) : Nat) : Rat)) /
    ((s.eraseDups.length : Nat) * (t.eraseDups.length : Nat) : Rat)

/-! ### Jaro and Jaro-Winkler -/

/-- `match_distance`, `_string_similarity.py:88-89`. -/
def matchDist (s t : List α) : Nat := (max s.length t.length) / 2 - 1

/-- Is `t[j]` a match for `c` that is not taken yet?. Serves `findMatch` (`_string_similarity.py:99-107`). -/
def free (t : List α) (tm : List Bool) (c : α) (j : Nat) : Bool := decide (tm[j]? = some false ∧ t[j]? = some c)

/-- The inner loop `for j in range(start, end)`, `_string_similarity.py:99-107`. -/
def findMatch (md : Nat) (t : List α) (tm : List Bool) (i : Nat) (c : α) : Option Nat :=
  (List.range' (i - md) (min (i + md + 1) t.length - (i - md))).find? (free t tm c)

/-- One iteration over `i`; the state holds `s_matches[:i]` and `t_matches`. Serves `matchFlags` (`_string_similarity.py:91-107`). -/
def matchStep (md : Nat) (t : List α) (st : List Bool × List Bool) (c : α) : List Bool × List Bool :=
  match findMatch md t st.2 st.1.length c with
  | none => (st.1 ++ [false], st.2)
  | some j => (st.1 ++ [true], st.2.set j true)

/-- `s_matches` and `t_matches`, `_string_similarity.py:91-107`. -/
def matchFlags (s t : List α) : List Bool × List Bool := s.foldl (matchStep (matchDist s t) t) ([], List.replicate t.length false)

/-- `matches`. Serves `jaro` (`_string_similarity.py:70-125`). -/
def nMatches (s t : List α) : Nat := (matchFlags s t).1.count true

/-- The matched characters of a string, in order. Serves `nTrans` (`_string_similarity.py:112-121`). -/
def matched (l : List α) (flags : List Bool) : List α := ((l.zip flags).filter (fun p => p.2)).map Prod.fst

/-- Number of positions where the matched characters differ, `_string_similarity.py:112-121`: the index `k` runs through the matched positions of `t` in order. -/
def nTrans (s t : List α) : Nat :=
  ((matched s (matchFlags s t).1).zip (matched t (matchFlags s t).2)).countP (fun p => decide (p.1 ≠ p.2))

/-- `jaro_distance`, `_string_similarity.py:70-125`. -/
def jaro (s t : List α) : Rat :=
  if s = [] ∧ t = [] then 1
  else if s = [] ∨ t = [] then 0
  else if nMatches s t = 0 then 0
  else ((nMatches s t : Rat) / (s.length : Nat) + (nMatches s t : Rat) / (t.length : Nat) +
    ((nMatches s t : Rat) - (nTrans s t / 2 : Nat)) / (nMatches s t : Nat)) / 3

/-- Length of the common prefix, at most 4, `_string_similarity.py:147-154`. -/
def prefixLen (s t : List α) : Nat := ((s.zip t).take 4).takeWhile (fun p => decide (p.1 = p.2)) |>.length

/-- `jaro_winkler_similarity`, `_string_similarity.py:128-156`; `none` is the `ValueError` for a bad scaling factor. -/
def jaroWinkler (scaling : Rat) (s t : List α) : Option Rat :=
  if 0 ≤ scaling ∧ scaling ≤ 1 / 4 then some (jaro s t + ((prefixLen s t : Rat) * scaling * (1 - jaro s t))) else none

/-! ### `string_similarity` -/

/-- `MatchResult`, `_string_similarity.py:254-260`. -/
structure Match (ω : Type) where
  word : ω
  score : Rat
  index : Nat
  deriving DecidableEq, Repr

/-- The sort key order: higher score first, then lower index, `_string_similarity.py:335`. -/
def matchLe {ω : Type} (a b : Match ω) : Bool := decide (b.score < a.score ∨ (a.score = b.score ∧ a.index ≤ b.index))

/-- The loop computing scores, `_string_similarity.py:319-328`.  `lower` is `str.lower` (or the identity if `case_sensitive`), `skip` the length check of Hamming. -/
def scored {ω : Type} (lower : ω → ω) (skip : ω → ω → Bool) (score : ω → ω → Rat) (word : ω) (threshold : Rat) : List ω → Nat → List (Match ω)
  | [], _ => []
  | w :: ws, i =>
    if skip (lower word) (lower w) then scored lower skip score word threshold ws (i + 1)
    else if threshold ≤ score (lower word) (lower w) then
      ⟨w, score (lower word) (lower w), i⟩ :: scored lower skip score word threshold ws (i + 1)
    else scored lower skip score word threshold ws (i + 1)

/-- Keep only the best scores (`case_sensitive`), `_string_similarity.py:338-340`. -/
def onlyBest {ω : Type} (l : List (Match ω)) : List (Match ω) :=
  match l with
  | [] => []
  | m :: r => (m :: r).filter (fun x => decide (x.score = m.score))

/-- `string_similarity(..., return_most_similar=False)`, `_string_similarity.py:264-347`.  `none` of the outer option is the `ValueError` (no candidates, or bad threshold); the inner one
the result `None`. -/
def stringSimilarity {ω : Type} (lower : ω → ω) (skip : ω → ω → Bool) (score : ω → ω → Rat) (caseSensitive : Bool) (word : ω) (words : List ω) (threshold : Rat) :
    Option (Option (List ω)) :=
  if words = [] ∨ ¬ (0 ≤ threshold ∧ threshold ≤ 1) then none
  else if scored (if caseSensitive then id else lower) skip score word threshold words 0 = [] then some none
  else
    some (some ((if caseSensitive then onlyBest (sortBy matchLe (scored id skip score word threshold words 0))
      else sortBy matchLe (scored lower skip score word threshold words 0)).map Match.word))

/-- `results[0].word` of a list of words. Serves `mostSimilar` (`_string_similarity.py:343-345`). -/
def firstWord {ω : Type} : List ω → Option ω
  | [] => none
  | w :: _ => some w

/-- `string_similarity(..., return_most_similar=True)`, `_string_similarity.py:343-345`. -/
def mostSimilar {ω : Type} (lower : ω → ω) (skip : ω → ω → Bool) (score : ω → ω → Rat) (caseSensitive : Bool) (word : ω) (words : List ω) (threshold : Rat) :
    Option (Option ω) :=
  (stringSimilarity lower skip score caseSensitive word words threshold).map (fun r => r.bind firstWord)

end Verif.Sim
