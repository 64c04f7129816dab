import Verif.Py.Dict
import Verif.Py.Basic

/-!
# Model of `get_bins` (`src/lionherd_core/ln/_utils.py`) and `fuzzy_match_keys` (`src/lionherd_core/ln/_fuzzy_match.py`)
-/

namespace Verif.KeyMatch

/-! ### `get_bins` -/

/-- The loop of `get_bins`, `_utils.py:116-125`, on the lengths of the items; `bins` are the finished bins, `cur` the current one, `n` its total. -/
def binLoop (upper : Int) : List Nat → Nat → Int → List Nat → List (List Nat) → List (List Nat)
  | [], _, _, cur, bins => if cur.isEmpty then bins else bins ++ [cur]
  | len :: ls, idx, n, cur, bins =>
    if n + len < upper then binLoop upper ls (idx + 1) (n + len) (cur ++ [idx]) bins
    else binLoop upper ls (idx + 1) len [idx] (bins ++ [cur])

/-- `get_bins`, `_utils.py:111-126`. -/
def getBins (lens : List Nat) (upper : Int) : List (List Nat) := binLoop upper lens 0 0 [] []

/-! ### `fuzzy_match_keys` -/

/-- `handle_unmatched`. Serves the model of `_fuzzy_match.py:102-117`. -/
inductive Mode where
  | ignore | raise | remove | fill | force
  deriving DecidableEq, Repr

/-- What the function is called with.  `best key words` is `string_similarity(key, words, return_most_similar=True)`;
`ord i` is the iteration order of the `i`-th set that is iterated; `falsy` tells the empty string; `fillFor` combines `fill_mapping` and `fill_value`.
Serves `fuzzyStep` (`_fuzzy_match.py:102-117`). -/
structure Cfg (κ ν : Type) where
  best : κ → List κ → Option κ
  falsy : κ → Bool
  fuzzy : Bool
  mode : Mode
  strict : Bool
  fillFor : κ → ν
  ord : {β : Type} → Nat → List β → List β

variable {κ ν : Type} [DecidableEq κ]

/-- The state of the fuzzy pass: the output, `remaining_expected` (which is `fields_set - matched_expected` at every moment), and `matched_input`.
Serves `exactPass` (`_fuzzy_match.py:86-91`). -/
structure St (κ ν : Type) where
  out : Dict κ ν
  remaining : List κ
  matched : List κ

/-- The exact pass, `_fuzzy_match.py:86-91`. -/
def exactPass (fields : List κ) (d : Dict κ ν) : St κ ν :=
  { out := d.filter (fun kv => decide (kv.1 ∈ fields)),
    remaining := fields.filter (fun k => !d.has k),
    matched := Dict.keys (d.filter (fun kv => decide (kv.1 ∈ fields))) }

/-- `if matches:`; an empty-string match counts as none. Serves `fuzzyStep` (`_fuzzy_match.py:102-117`). -/
def accept (c : Cfg κ ν) (m : Option κ) : Option κ :=
  match m with
  | some k => if c.falsy k then none else some k
  | none => none

/-- One round of the fuzzy pass, `_fuzzy_match.py:102-117`. -/
def fuzzyStep (c : Cfg κ ν) (i : Nat) (kv : κ × ν) (s : St κ ν) : St κ ν :=
  match accept c (c.best kv.1 (c.ord i s.remaining)) with
  | some m => { out := s.out.set m kv.2, remaining := s.remaining.erase m, matched := s.matched ++ [kv.1] }
  | none => if c.mode = .ignore then { s with out := s.out.set kv.1 kv.2 } else s

/-- The fuzzy pass, `_fuzzy_match.py:98-117`. -/
def fuzzyLoop (c : Cfg κ ν) : Nat → List (κ × ν) → St κ ν → St κ ν
  | _, [], s => s
  | i, kv :: rest, s => if s.remaining.isEmpty then s else fuzzyLoop c (i + 1) rest (fuzzyStep c i kv s)

/-- Both passes. Serves `fuzzyMatchKeys` (`_fuzzy_match.py:25-147`). -/
def passes (c : Cfg κ ν) (fields : List κ) (d : Dict κ ν) : St κ ν :=
  if c.fuzzy then
    fuzzyLoop c 2 (c.ord 0 (d.filter (fun kv => !decide (kv.1 ∈ fields)))) (exactPass fields d)
  else exactPass fields d

/-- Writing a list of entries. Serves `finish` (`_fuzzy_match.py:126-141`). -/
def writeAll (out : Dict κ ν) (kvs : List (κ × ν)) : Dict κ ν := kvs.foldl (fun o kv => o.set kv.1 kv.2) out

/-- The entries of `unmatched_input`. Serves `finish` (`_fuzzy_match.py:126-141`). -/
def unmatchedInput (d : Dict κ ν) (s : St κ ν) : List (κ × ν) := d.filter (fun kv => !decide (kv.1 ∈ s.matched))

/-- Filling and keeping, `_fuzzy_match.py:126-141`. -/
def finish (c : Cfg κ ν) (d : Dict κ ν) (s : St κ ν) : Dict κ ν :=
  match c.mode with
  | .ignore => writeAll s.out (c.ord 1 (unmatchedInput d s))
  | .fill => writeAll (writeAll s.out ((c.ord 1 s.remaining).map (fun k => (k, c.fillFor k)))) (c.ord 1 (unmatchedInput d s))
  | .force => writeAll s.out ((c.ord 1 s.remaining).map (fun k => (k, c.fillFor k)))
  | _ => s.out

/-- `fuzzy_match_keys`, `_fuzzy_match.py:25-147`, after the argument checks; `fields` are the expected keys without repetition. -/
def fuzzyMatchKeys (c : Cfg κ ν) (fields : List κ) (d : Dict κ ν) : Except Exc (Dict κ ν) :=
  if fields.isEmpty then .ok d
  else if decide (c.mode = .raise) && !(unmatchedInput d (passes c fields d)).isEmpty then .error .valueError
  else if c.strict && !(passes c fields d).remaining.isEmpty then .error .valueError
  else .ok (finish c d (passes c fields d))

end Verif.KeyMatch
