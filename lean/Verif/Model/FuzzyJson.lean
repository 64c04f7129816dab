import Verif.Py.Basic
import Verif.Py.Space

/-!
# Model of `src/lionherd_core/libs/string_handlers/_fuzzy_json.py`

Texts are lists of characters.  The JSON parser (`orjson.loads`) is a parameter.
-/

namespace Verif.FuzzyJson

/-- Serves `bracket` (`_fuzzy_json.py:133-144`). -/
abbrev Str := List Char

/-! ### `fix_json_string` -/

/-- Where the scanner is: outside strings, just after a backslash outside strings, inside a string, just after a backslash inside a string.
The code advances `pos` by two at a backslash; here the skipped character is consumed in the mode `outEsc` or `strEsc`.
Serves `scan` (`_fuzzy_json.py:114-146`). -/
inductive Mode where
  | out | outEsc | str | strEsc
  deriving DecidableEq, Repr

/-- `brackets`, `_fuzzy_json.py:109`. -/
def closer : Char → Option Char
  | '{' => some '}'
  | '[' => some ']'
  | _ => none

/-- `char in brackets.values()`. Serves `bracket` (`_fuzzy_json.py:133-144`). -/
def isCloser (c : Char) : Bool := decide (c = '}') || decide (c = ']')

/-- A bracket outside strings, `_fuzzy_json.py:133-144`; the stack has the innermost expected closer first. -/
def bracket (c : Char) (stack : Str) : Except Exc Str :=
  match closer c with
  | some d => .ok (d :: stack)
  | none =>
    if isCloser c then
      match stack with
      | [] => .error .valueError
      | d :: ds => if d ≠ c then .error .valueError else .ok ds
    else .ok stack

/-- The next mode after a character outside strings. Serves `scan` (`_fuzzy_json.py:114-146`). -/
def outMode (c : Char) : Mode := if c = '\\' then .outEsc else if c = '"' then .str else .out

/-- The next mode after a character inside a string. Serves `scan` (`_fuzzy_json.py:114-146`). -/
def strMode (c : Char) : Mode := if c = '\\' then .strEsc else if c = '"' then .out else .str

/-- The scanning loop, `_fuzzy_json.py:114-146`: the mode and stack at the end.  Backslash and quote are not brackets, so `bracket` leaves the stack alone. -/
def scan : Mode → Str → Str → Except Exc (Mode × Str)
  | m, stack, [] => .ok (m, stack)
  | .out, stack, c :: s =>
    match bracket c stack with
    | .error e => .error e
    | .ok stack' => scan (outMode c) stack' s
  | .outEsc, stack, _ :: s => scan .out stack s
  | .str, stack, c :: s => scan (strMode c) stack s
  | .strEsc, stack, _ :: s => scan .str stack s

/-- `fix_json_string`, `_fuzzy_json.py:104-152`. -/
def fixJson (s : Str) : Except Exc Str :=
  if s.isEmpty then .error .valueError
  else
    match scan .out [] s with
    | .error e => .error e
    | .ok (_, stack) => .ok (s ++ stack)

/-! ### `_clean_json_string` -/

/-- `\s` and the characters `str.strip` removes. Serves `collapse` (`_fuzzy_json.py:95`). -/
def isSpace (c : Char) : Bool := Py.isSpace c

/-- `str_to_parse.replace("'", '"')`, `_fuzzy_json.py:30`; the substitution of unescaped single quotes (`_fuzzy_json.py:93`) then finds none. -/
def requote (s : Str) : Str := s.map (fun c => if c = '\'' then '"' else c)

/-- `re.sub(r"\s+", " ", s)`, `_fuzzy_json.py:95`; `inWs`: within a run of whitespace whose blank was written. -/
def collapse : Bool → Str → Str
  | _, [] => []
  | true, c :: s => if isSpace c then collapse true s else c :: collapse false s
  | false, c :: s => if isSpace c then ' ' :: collapse true s else c :: collapse false s

/-- Does `\s*[}\]]` match here?. Serves `dropCommas` (`_fuzzy_json.py:97`). -/
def closerNext : Str → Bool
  | [] => false
  | c :: s => if isSpace c then closerNext s else isCloser c

/-- `re.sub(r",\s*([}\]])", r"\1", s)`, `_fuzzy_json.py:97`; `skip`: within the whitespace after a removed comma. -/
def dropCommas : Bool → Str → Str
  | _, [] => []
  | true, c :: s => if isSpace c then dropCommas true s else c :: dropCommas false s
  | false, c :: s => if c = ',' && closerNext s then dropCommas true s else c :: dropCommas false s

/-- The longest prefix of `[^"\s]` characters, and the rest. Serves the model of `_fuzzy_json.py:100`. -/
def keyRun : Str → Str × Str
  | [] => ([], [])
  | c :: s => if c = '"' || isSpace c then ([], c :: s) else (c :: (keyRun s).1, (keyRun s).2)

/-- Text without leading whitespace. Serves the model of `_fuzzy_json.py:100`. -/
def skipWs : Str → Str
  | [] => []
  | c :: s => if isSpace c then skipWs s else c :: s

/-- Split at the last colon that is not the first character. Serves the model of `_fuzzy_json.py:100`. -/
def lastColon (r : Str) : Option (Str × Str) :=
  match (r.reverse.span (fun c => !decide (c = ':'))) with
  | (after, _ :: before) => if before.isEmpty then none else some (before.reverse, after.reverse)
  | (_, []) => none

/-- A match of `\s*([^"\s]+)\s*:`: the key and the text after the colon.  The run of key characters is taken in full if a colon follows (after
whitespace); otherwise the expression backtracks to the last colon inside it. Serves `quoteKeys` (`_fuzzy_json.py:100`). -/
def keyMatch (s : Str) : Option (Str × Str) :=
  match keyRun (skipWs s) with
  | ([], _) => none
  | (r, rest) =>
    match skipWs rest with
    | ':' :: t => some (r, t)
    | _ => (lastColon r).map (fun p => (p.1, p.2 ++ rest))

/-- `re.sub(r'([{,])\s*([^"\s]+)\s*:', r'\1"\2":', s)`, `_fuzzy_json.py:100`.  The fuel is the length of the text. -/
def quoteKeys : Nat → Str → Str
  | 0, s => s
  | _, [] => []
  | n + 1, c :: s =>
    if c = '{' || c = ',' then
      match keyMatch s with
      | some (k, t) => c :: '"' :: (k ++ '"' :: ':' :: quoteKeys n t)
      | none => c :: quoteKeys n s
    else c :: quoteKeys n s

/-- `strip()`. Serves `clean` (`_fuzzy_json.py:30`). -/
def strip (s : Str) : Str := (skipWs (skipWs s).reverse).reverse

/-- `_clean_json_string(str_to_parse.replace(...))`, `_fuzzy_json.py:30` and `88-101`. -/
def clean (s : Str) : Str := strip (quoteKeys s.length (dropCommas false (collapse false (requote s))))

/-! ### `fuzzy_json` -/

/-- Parsed values, as far as `_validate_return_type` looks. Serves `validate` (`_fuzzy_json.py:52-86`). -/
inductive J (α : Type) where
  | dict (a : α)
  | list (items : List (Option α))     -- `none`: an item that is not a dict
  | prim (a : α)
  deriving DecidableEq, Repr

variable {α : Type}

/-- `_validate_return_type`, `_fuzzy_json.py:52-86`. -/
def validate (j : J α) : Except Exc (J α) :=
  match j with
  | .dict _ => .ok j
  | .list items => if items.all Option.isSome then .ok j else .error .typeError
  | .prim _ => .error .typeError

/-- The third attempt, `_fuzzy_json.py:36-42`. -/
def third (loads : Str → Option (J α)) (cleaned : Str) : Except Exc (J α) :=
  match fixJson cleaned with
  | .error e => .error e
  | .ok fixed =>
    match loads fixed with
    | some j => validate j
    | none => .error .valueError

/-- `fuzzy_json`, `_fuzzy_json.py:11-49`, on strings; `loads s = none`: JSONDecodeError. -/
def fuzzyJson (loads : Str → Option (J α)) (s : Str) : Except Exc (J α) :=
  if s.all isSpace then .error .valueError
  else
    match loads s with
    | some j => validate j
    | none =>
      match loads (clean s) with
      | some j => validate j
      | none => third loads (clean s)

/-! ### `extract_json` (`_extract_json.py`) -/

/-- The characters "```". Serves `blocks` (`_extract_json.py:12-13`). -/
def fence : Str := ['`', '`', '`']

/-- The characters "```json". Serves `blocks` (`_extract_json.py:12-13`). -/
def opener : Str := ['`', '`', '`', 'j', 's', 'o', 'n']

/-- Split at the first occurrence of `p`: before and after it. Serves `blocks` (`_extract_json.py:12-13`). -/
def splitOn (p : Str) : Str → Option (Str × Str)
  | [] => if p.isEmpty then some ([], []) else none
  | c :: s =>
    if p.isPrefixOf (c :: s) then some ([], (c :: s).drop p.length)
    else (splitOn p s).map (fun x => (c :: x.1, x.2))

/-- `_JSON_BLOCK_PATTERN.findall`, `_extract_json.py:12-13`: "```json", whitespace, the shortest text, whitespace, "```".  The text ends at the first
"```" after the opener, so it is what lies between, stripped.  The fuel is the length of the text. -/
def blocks : Nat → Str → List Str
  | 0, _ => []
  | n + 1, s =>
    match splitOn opener s with
    | none => []
    | some (_, rest) =>
      match splitOn fence rest with
      | none => []
      | some (body, rest') => strip body :: blocks n rest'

/-- The result of `extract_json`: one parsed value, or a list of them. Serves `extractOne` (`_extract_json.py:48-55`). -/
inductive Extracted (β : Type) where
  | one (b : β)
  | many (bs : List β)
  deriving DecidableEq, Repr

/-- A single block, `_extract_json.py:48-55`. -/
def extractOne {β : Type} (parse : Str → Option β) (b : Str) : Extracted β :=
  match parse b with
  | some v => .one v
  | none => .many []

/-- `extract_json`, `_extract_json.py:16-65`, on a text; `parse` is `fuzzy_json` or `orjson.loads` with `none` for any exception. -/
def extractJson {β : Type} (parse : Str → Option β) (oneIfSingle : Bool) (s : Str) : Extracted β :=
  match parse s with
  | some v => .one v
  | none =>
    match blocks s.length s with
    | [] => .many []
    | [b] => if oneIfSingle then extractOne parse b else .many ([b].filterMap parse)
    | bs => .many (bs.filterMap parse)

end Verif.FuzzyJson
