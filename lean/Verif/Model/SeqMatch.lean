import Verif.Py.Basic

/-!
# Model of `sequence_matcher_similarity` (`src/lionherd_core/libs/string_handlers/_string_similarity.py:218-230`)

The score is `difflib.SequenceMatcher(None, s1, s2).ratio()`; the parts of `difflib.py` (CPython 3.12) it runs are modelled as well.  Strings are lists over any
type of characters with decidable equality, the score is an exact rational.  There are no junk elements (`isjunk` is `None`), so the loops over junk do nothing.

A window `a[alo:ahi]`, `b[blo:bhi]` is represented by the two sublists, positions are relative to them.  The dict `j2len` is represented by the list of its values at
all positions of `b`, with 0 for absent keys.
-/

namespace Verif.SeqMatch

variable {α : Type} [DecidableEq α]

/-- `elt in self.bpopular`, `difflib.py:294-303` (`__chain_b`): in a second string of at least 200 characters, characters that make up more than about 1%. -/
def popular (b : List α) (c : α) : Bool := decide (200 ≤ b.length ∧ b.length / 100 + 1 < b.count c)

/-- A block `a[i:i+k] == b[j:j+k]`. Serves `better` (`difflib.py:385-387`). -/
structure Block where
  i : Nat
  j : Nat
  k : Nat
  deriving DecidableEq, Repr

/-- `newj2len`, the loop over `j` in `find_longest_match`, `difflib.py:377-388`: the remaining characters of `b`, `j2len[j-1]` and `j2len` from `j` on. -/
def rowGo (pop : α → Bool) (x : α) : List α → Nat → List Nat → List Nat
  | y :: ys, diag, o :: os => (if x = y ∧ pop x = false then diag + 1 else 0) :: rowGo pop x ys o os
  | _, _, _ => []

/-- `if k > bestsize: besti, bestj, bestsize = i-k+1, j-k+1, k`, `difflib.py:385-387`. -/
def better (i j k : Nat) (best : Block) : Block := if best.k < k then ⟨i + 1 - k, j + 1 - k, k⟩ else best

/-- The updates of the best block in row `i`, from position `j` on. Serves `rows` (`difflib.py:374-388`). -/
def scanRow (i : Nat) : Nat → List Nat → Block → Block
  | _, [], best => best
  | j, k :: ks, best => scanRow i (j + 1) ks (better i j k best)

/-- The loop over `i`, `difflib.py:374-388`. -/
def rows (pop : α → Bool) (b : List α) : List α → Nat → List Nat → Block → Block
  | [], _, _, best => best
  | x :: xs, i, old, best => rows pop b xs (i + 1) (rowGo pop x b 0 old) (scanRow i 0 (rowGo pop x b 0 old) best)

/-- The best block without popular characters. Serves `longest` (`difflib.py:305-419`). -/
def core (pop : α → Bool) (a b : List α) : Block := rows pop b a 0 (List.replicate b.length 0) ⟨0, 0, 0⟩

/-- Number of steps two positions can advance together. Serves `extendLeft` (`difflib.py:394-397`). -/
def agree : List α → List α → Nat
  | x :: xs, y :: ys => if x = y then agree xs ys + 1 else 0
  | _, _ => 0

/-- Extension to the left, `difflib.py:394-397`. -/
def extendLeft (a b : List α) (m : Block) : Block :=
  ⟨m.i - agree (a.take m.i).reverse (b.take m.j).reverse, m.j - agree (a.take m.i).reverse (b.take m.j).reverse,
    m.k + agree (a.take m.i).reverse (b.take m.j).reverse⟩

/-- Extension to the right, `difflib.py:398-401`. -/
def extendRight (a b : List α) (m : Block) : Block := ⟨m.i, m.j, m.k + agree (a.drop (m.i + m.k)) (b.drop (m.j + m.k))⟩

/-- `find_longest_match`, `difflib.py:305-419`. -/
def longest (pop : α → Bool) (a b : List α) : Block := extendRight a b (extendLeft a b (core pop a b))

/-- The total size of the matching blocks, `get_matching_blocks`, `difflib.py:421-488` (the order in which windows are treated and the merging of adjacent blocks
do not change the total).  The number bounds the depth; the length of `a` suffices. -/
def matches' (pop : α → Bool) : Nat → List α → List α → Nat
  | 0, _, _ => 0
  | n + 1, a, b =>
    if (longest pop a b).k = 0 then 0
    else
      matches' pop n (a.take (longest pop a b).i) (b.take (longest pop a b).j) + (longest pop a b).k +
        matches' pop n (a.drop ((longest pop a b).i + (longest pop a b).k)) (b.drop ((longest pop a b).j + (longest pop a b).k))

/-- `sum(triple[-1] for triple in self.get_matching_blocks())`, `difflib.py:619`. -/
def total (s t : List α) : Nat := matches' (popular t) s.length s t

/-- `sequence_matcher_similarity`, `_string_similarity.py:218-230`, with `_calculate_ratio`, `difflib.py:39-42`. -/
def seqSim (s t : List α) : Rat := if s.length + t.length = 0 then 1 else 2 * (total s t : Rat) / (s.length + t.length : Nat)

end Verif.SeqMatch
