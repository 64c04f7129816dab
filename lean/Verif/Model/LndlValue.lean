import Verif.Model.Resolver
import Verif.Model.ToNum
import Verif.Py.Space

/-!
# Values of LNDL variables and literals (`src/lionherd_core/lndl/parser.py:580-605, 623-637`, `resolver.py:124-142`)

How the text of a variable or of a literal becomes the value of a scalar field.  `ast.literal_eval`, the built-in readers of numbers and the text of floats and
of compound values are parameters (`Env`).  Compound values (bytes, tuples, lists, dictionaries, sets, complex numbers, `...`) are numbered.
-/

namespace Verif.LndlValue

open Verif.Parser (Str OutVal)
open Verif.Resolver (FErr Ext Spec)
open Verif.ToNum (F)

/-- Python values that `ast.literal_eval` can return. Serves `orText` (`parser.py:634-637`). -/
inductive Val where
  | none_
  | bool (b : Bool)
  | int (n : Int)
  | float (x : F)
  | str (s : Str)
  | other (k : Nat)
  deriving DecidableEq

/-- How `ast.literal_eval(text)` ends: with a value, with `ValueError` or `SyntaxError`, or with another exception (`TypeError` for `{[]}`, `MemoryError`,
`RecursionError`). Serves `orText` (`parser.py:634-637`). -/
inductive Lit where
  | val (v : Val)
  | refused
  | raised
  deriving DecidableEq

/-- Built-in Python. Serves `parseStripped` (`parser.py:628-637`). -/
structure Env where
  literal : Str → Lit             -- ast.literal_eval
  num : Str → Val                 -- the int or float of a number token, parser.py:583-592
  showFloat : F → Str             -- str(x) of a float
  showOther : Nat → Str           -- str(x) of a compound value
  floatText : Str → Option F      -- float(s); none: ValueError
  intText : Str → Option Int      -- int(s); none: ValueError
  floatOther : Nat → Option F     -- float(x) of a compound value; none: ValueError or TypeError
  intOther : Nat → Option Int     -- int(x) of a compound value; none: ValueError or TypeError
  truthy : Nat → Bool             -- bool(x) of a compound value

/-- `str.strip()`. Serves `parseValue` (`parser.py:623-637`). -/
def strip (t : Str) : Str := ((t.dropWhile Py.isSpace).reverse.dropWhile Py.isSpace).reverse

/-- `value_str.lower() == w` for a word of ASCII letters other than `k`: no other characters have these letters as lower case.
Serves `parseStripped` (`parser.py:628-637`). -/
def saysWord (w t : Str) : Bool := t.map Char.toLower == w

/-- The literal, or else the text itself, `parser.py:634-637`. -/
def orText (t : Str) : Lit → Except FErr Val
  | .val v => .ok v
  | .refused => .ok (.str t)
  | .raised => .error .other

/-- `parse_value` after stripping, `parser.py:628-637`. -/
def parseStripped (env : Env) (t : Str) : Except FErr Val :=
  if saysWord ['t', 'r', 'u', 'e'] t then .ok (.bool true)
  else if saysWord ['f', 'a', 'l', 's', 'e'] t then .ok (.bool false)
  else if saysWord ['n', 'u', 'l', 'l'] t then .ok .none_
  else orText t (env.literal t)

/-- `parse_value` of a text, `parser.py:623-637`. -/
def parseValue (env : Env) (t : Str) : Except FErr Val := parseStripped env (strip t)

/-- A literal of the OUT block, `parser.py:578-602`, `resolver.py:130-132`: only strings are parsed again. -/
def litValue (env : Env) : OutVal → Except FErr Val
  | .str s => parseValue env s
  | .num s => .ok (env.num s)
  | .bool b => .ok (.bool b)
  | .refs _ => .error .other

/-- The text of an integer. Serves the model of `resolver.py:134-140`. -/
def showInt (n : Int) : Str := (toString n).toList

/-- `str(v)`. Serves `convert` (`resolver.py:134-140`). -/
def toStr (env : Env) : Val → Str
  | .none_ => ['N', 'o', 'n', 'e']
  | .bool true => ['T', 'r', 'u', 'e']
  | .bool false => ['F', 'a', 'l', 's', 'e']
  | .int n => showInt n
  | .float x => env.showFloat x
  | .str s => s
  | .other k => env.showOther k

/-- `bool(v)`. Serves `convert` (`resolver.py:134-140`). -/
def toBool (env : Env) : Val → Bool
  | .none_ => false
  | .bool b => b
  | .int n => decide (n ≠ 0)
  | .float x => decide (x ≠ .fin 0)
  | .str s => decide (s ≠ [])
  | .other k => env.truthy k

/-- A built-in reader that raises `ValueError` or `TypeError`, turned into `ValueError` by `resolver.py:137-140`. -/
def orValueError {α : Type} : Option α → Except FErr α
  | some a => .ok a
  | none => .error .value

/-- `int(x)` of a float: truncation; NaN is a `ValueError`, an infinity an `OverflowError`, which is not caught.
Serves the model of `resolver.py:134-140`. -/
def intOfFloat : F → Except FErr Int
  | .fin q => .ok (ToNum.trunc q)
  | .nan => .error .value
  | .posInf => .error .other
  | .negInf => .error .other

/-- `int(v)`. Serves `convert` (`resolver.py:134-140`). -/
def toInt (env : Env) : Val → Except FErr Int
  | .none_ => .error .value
  | .bool b => .ok (if b then 1 else 0)
  | .int n => .ok n
  | .float x => intOfFloat x
  | .str s => orValueError (env.intText s)
  | .other k => orValueError (env.intOther k)

/-- `float(n)`: an integer that is too large is an `OverflowError`, which is not caught. Serves the model of `resolver.py:134-140`. -/
def floatOfInt (n : Int) : Except FErr F :=
  match ToNum.floatOfInt n with
  | .ok x => .ok x
  | .error _ => .error .other

/-- `float(v)`. Serves `convert` (`resolver.py:134-140`). -/
def toFloat (env : Env) : Val → Except FErr F
  | .none_ => .error .value
  | .bool b => .ok (.fin (if b then 1 else 0))
  | .int n => floatOfInt n
  | .float x => .ok x
  | .str s => orValueError (env.floatText s)
  | .other k => orValueError (env.floatOther k)

/-- `target_type(parsed_value)`, `resolver.py:134-140`: the scalar types are float (0), str (1), int (2) and bool (3). -/
def convert (env : Env) (t : Nat) (v : Val) : Except FErr Val :=
  if t = 0 then (toFloat env v).map .float
  else if t = 1 then .ok (.str (toStr env v))
  else if t = 2 then (toInt env v).map .int
  else .ok (.bool (toBool env v))

/-- The resolver with these values; models and calls stay parameters. Built on `parseValue` (`parser.py:623-637`). -/
def ext {κ μ : Type} (env : Env) (base : Ext Val κ μ) : Ext Val κ μ :=
  { base with parseValue := parseValue env, lit := litValue env, convert := convert env }

end Verif.LndlValue
