import Verif.Py.Basic
import Verif.Py.Sort
import Verif.Model.Json

/-!
# Model of `json_lines_iter`, deterministic sets and the safe fallback (`src/lionherd_core/ln/_json_dump.py`)

`orjson.dumps` is modelled by the writer of JSON text in `Verif.Model.Json`: compact, or indented with `OPT_INDENT_2`; with `OPT_APPEND_NEWLINE` a line
break follows.
-/

namespace Verif.JsonDump

open Json

/-- The option flags that matter here. Serves `lineOpts` (`_json_dump.py:325-336`). -/
structure Opts where
  indent : Bool
  newline : Bool
  deriving DecidableEq

/-- `orjson.dumps(item, default=default, option=opt)`; `enc` is the conversion by `default`, `none` if it raises.
Serves `linesLoop` (`_json_dump.py:338-339`). -/
def dumps {β : Type} (enc : β → Option J) (o : Opts) (x : β) : Option Str :=
  match enc x with
  | none => none
  | some v => some (write o.indent 0 v ++ if o.newline then ['\n'] else [])

/-- The flags in effect, `_json_dump.py:325-336`: compact with a line break; given options get `OPT_APPEND_NEWLINE` added. -/
def lineOpts : Option Opts → Opts
  | none => ⟨false, true⟩
  | some o => { o with newline := true }

/-- The generator loop, `_json_dump.py:338-339`: the chunks yielded, and whether an exception ended it. -/
def linesLoop {β : Type} (enc : β → Option J) (o : Opts) : List β → List Str × Bool
  | [] => ([], false)
  | x :: xs =>
    match dumps enc o x with
    | none => ([], true)
    | some s => (s :: (linesLoop enc o xs).1, (linesLoop enc o xs).2)

/-- `json_lines_iter`, `_json_dump.py:293-339`. -/
def jsonLines {β : Type} (enc : β → Option J) (options : Option Opts) (xs : List β) : List Str × Bool := linesLoop enc (lineOpts options) xs

/-! ### Deterministic sets -/

/-- `[0-9A-Fa-f]`. Serves `matchAddr` (`_json_dump.py:34`). -/
def isHex (c : Char) : Bool := c.isDigit || (decide ('a' ≤ c) && decide (c ≤ 'f')) || (decide ('A' ≤ c) && decide (c ≤ 'F'))

/-- The characters " at 0x". Serves `matchAddr` (`_json_dump.py:34`). -/
def atStr : Str := [' ', 'a', 't', ' ', '0', 'x']

/-- A match of `_ADDR_PAT` at the beginning, `_json_dump.py:34`: what follows it. -/
def matchAddr (s : Str) : Option Str :=
  if atStr.isPrefixOf s && isHex ((s.drop 6).headD ' ') then some ((s.drop 6).dropWhile isHex) else none

/-- `_ADDR_PAT.sub(" at 0x?", s)`; the fuel is the length of the text. Serves `normalize` (`_json_dump.py:41-44`). -/
def norm : Nat → Str → Str
  | 0, _ => []
  | _ + 1, [] => []
  | n + 1, c :: s =>
    match matchAddr (c :: s) with
    | some rest => atStr ++ '?' :: norm n rest
    | none => c :: norm n s

/-- `_normalize_for_sorting`, `_json_dump.py:41-44`, on the text of the value. -/
def normalize (s : Str) : Str := norm s.length s

/-- Python's comparison of texts. Serves the model of `_json_dump.py:47-53`. -/
def leStr : Str → Str → Bool
  | [], _ => true
  | _ :: _, [] => false
  | a :: s, b :: t => if a.toNat < b.toNat then true else if b.toNat < a.toNat then false else leStr s t

/-- Python's comparison of pairs of texts. Serves `stableSorted` (`_json_dump.py:47-53`). -/
def leKey (a b : Str × Str) : Bool := if a.1 = b.1 then leStr a.2 b.2 else leStr a.1 b.1

/-- `_stable_sorted_iterable`, `_json_dump.py:47-53`; `l` is the set in iteration order. -/
def stableSorted {α : Type} (cls text : α → Str) (l : List α) : List α :=
  sortBy (fun x y => leKey (cls x, normalize (text x)) (cls y, normalize (text y))) l

/-! ### The safe fallback -/

/-- What `default` sees of an object without a registered serializer. `modelDump`, `dict`: absent, or a method that returns or raises; `repr`, `str`: the text, or
`none` if the call raises.  Not modelled: attribute access that itself raises. Serves `safe` (`_json_dump.py:160-163`). -/
structure Obj (ν : Type) where
  isException : Bool
  modelDump : Option (Option ν)
  dict : Option (Option ν)
  repr : Option Str
  str : Option Str

/-- The output: a value, the payload of an exception, or a clipped text. Serves `safe` (`_json_dump.py:160-163`). -/
inductive Out (ν : Type) where
  | value (v : ν)
  | payload (message : Str)
  | text (s : Str)
  deriving DecidableEq

/-- The placeholder of `_clip`, `_json_dump.py:37-38`. -/
def placeholder (limit : Int) (s : Str) : Str := "...(+".toList ++ (toString ((s.length : Int) - limit)).toList ++ " chars)".toList

/-- `_clip`, `_json_dump.py:37-38`: `textwrap.shorten` raises ValueError if the width is not positive or the placeholder is longer than it;
otherwise the text is `shorten`. -/
def clip (shorten : Int → Str → Str → Str) (limit : Int) (s : Str) : Except Exc Str :=
  if limit ≤ 0 then .error .valueError
  else if (placeholder limit s).length > limit then .error .valueError
  else .ok (shorten limit (placeholder limit s) s)

/-- A text that may be missing because computing it raised (any exception; here RuntimeError). Serves `safe` (`_json_dump.py:160-163`). -/
def orRaise {α : Type} : Option α → Except Exc α
  | some a => .ok a
  | none => .error .runtimeError

/-- Serves `safe` (`_json_dump.py:160-163`). -/
def mapOk {α β : Type} (f : α → β) : Except Exc α → Except Exc β
  | .ok a => .ok (f a)
  | .error e => .error e

/-- `_json_dump.py:160-163`. -/
def safe {ν : Type} (shorten : Int → Str → Str → Str) (limit : Int) (o : Obj ν) : Except Exc (Out ν) :=
  if o.isException then mapOk .payload (orRaise o.str)
  else
    match orRaise o.repr with
    | .error e => .error e
    | .ok s => mapOk .text (clip shorten limit s)

/-- The end of `default`, `_json_dump.py:149-164`, for an object without a serializer. -/
def fallback {ν : Type} (shorten : Int → Str → Str → Str) (safeFallback : Bool) (limit : Int) (o : Obj ν) : Except Exc (Out ν) :=
  match o.modelDump with
  | some (some v) => .ok (.value v)
  | _ =>
    match o.dict with
    | some (some v) => .ok (.value v)
    | _ => if safeFallback then safe shorten limit o else .error .typeError

end Verif.JsonDump
