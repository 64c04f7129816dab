import Verif.Py.Basic

/-!
# Model of `src/lionherd_core/libs/string_handlers/_to_num.py`

Finite floats are rationals.  Conversion of an integer to a float follows IEEE double precision; reading a string
(`float(s)`), converting a Decimal (given as a float) and rounding to a number of digits are parameters.
-/

namespace Verif.ToNum

/-- Float values. Serves `convert` (`_to_num.py:37-49`). -/
inductive F where
  | fin (q : Rat)
  | posInf | negInf | nan
  deriving DecidableEq

/-- Inputs: ints (also bools), floats, strings by the value `float(s.strip())` gives (`none`: ValueError, also for blank strings), others.
Serves `convert` (`_to_num.py:37-49`). -/
inductive Input where
  | int (n : Int)
  | float (x : F)
  | str (x : Option F)
  | other

/-- Round a natural number to 53 significant bits, ties to even: `float(n)`. Serves the model of `_to_num.py:37-49`. -/
def round53 (n : Nat) : Nat :=
  if n < 2 ^ 53 then n
  else
    if 2 * (n % 2 ^ (n.log2 - 52)) < 2 ^ (n.log2 - 52) then (n / 2 ^ (n.log2 - 52)) * 2 ^ (n.log2 - 52)
    else if 2 * (n % 2 ^ (n.log2 - 52)) = 2 ^ (n.log2 - 52) ∧ (n / 2 ^ (n.log2 - 52)) % 2 = 0 then (n / 2 ^ (n.log2 - 52)) * 2 ^ (n.log2 - 52)
    else (n / 2 ^ (n.log2 - 52) + 1) * 2 ^ (n.log2 - 52)

/-- `float(n)` for an int that is not too large. Serves the model of `_to_num.py:37-49`. -/
def ofInt (n : Int) : Int := if 0 ≤ n then (round53 n.natAbs : Int) else -(round53 n.natAbs : Int)

/-- `float(n)`: the rounded value must be below 2^1024. Serves `convert` (`_to_num.py:37-49`). -/
def floatOfInt (n : Int) : Except Exc F := if round53 n.natAbs < 2 ^ 1024 then .ok (.fin (ofInt n)) else .error .overflowError

/-- `value = float(input_)`, `_to_num.py:37-49`. -/
def convert : Input → Except Exc F
  | .int n => floatOfInt n
  | .float x => .ok x
  | .str (some x) => .ok x
  | .str none => .error .valueError
  | .other => .error .typeError

/-- `value > bound` for a finite bound; comparisons with NaN are false. Serves `outOfBounds` (`_to_num.py:52-55`). -/
def gt : F → Rat → Bool
  | .fin q, b => decide (b < q)
  | .posInf, _ => true
  | _, _ => false

/-- `value < bound`. Serves `outOfBounds` (`_to_num.py:52-55`). -/
def lt : F → Rat → Bool
  | .fin q, b => decide (q < b)
  | .negInf, _ => true
  | _, _ => false

/-- The bounds check, `_to_num.py:52-55`. -/
def outOfBounds (ub lb : Option Rat) (x : F) : Bool := ub.any (gt x) || lb.any (lt x)

/-- Results. Serves `finish` (`_to_num.py:58-63`). -/
inductive Num where
  | int (n : Int)
  | float (x : F)
  deriving DecidableEq

/-- `round(value, precision)`; infinities and NaN stay. Serves `finish` (`_to_num.py:58-63`). -/
def roundF (round : Rat → Rat) : F → F
  | .fin q => .fin (round q)
  | x => x

/-- `int(q)`: towards zero. Serves the model of `_to_num.py:58-63`. -/
def trunc (q : Rat) : Int := if 0 ≤ q then q.floor else q.ceil

/-- `int(value)`. Serves `finish` (`_to_num.py:58-63`). -/
def toInt : F → Except Exc Num
  | .fin q => .ok (.int (trunc q))
  | .nan => .error .valueError
  | _ => .error .overflowError

/-- Conversion to the target type, `_to_num.py:58-63`; `round` is present when `precision` is given. -/
def finish (isInt : Bool) (round : Option (Rat → Rat)) (x : F) : Except Exc Num :=
  if isInt then toInt x
  else
    match round with
    | some r => .ok (.float (roundF r x))
    | none => .ok (.float x)

/-- `to_num`, `_to_num.py:8-63`, for `num_type` int or float. -/
def toNum (ub lb : Option Rat) (isInt : Bool) (round : Option (Rat → Rat)) (i : Input) : Except Exc Num :=
  match convert i with
  | .error e => .error e
  | .ok x => if outOfBounds ub lb x then .error .valueError else finish isInt round x

end Verif.ToNum
