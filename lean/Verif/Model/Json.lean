import Verif.Py.Basic

/-!
# Model of `orjson.dumps` and `orjson.loads` on text (library behaviour, not code of `/repo`)

Used by `json_dumpb`, `json_dumps`, `json_lines_iter`, `json_dict` (`src/lionherd_core/ln/_json_dump.py:218-347`) and by `fuzzy_json`
(`src/lionherd_core/libs/string_handlers/_fuzzy_json.py`).  Numbers are kept as their texts.  Not modelled: the limits on nesting depth, lone
surrogates in Python strings (orjson refuses them), and duplicate keys (the fields of an object are a list here).
-/

namespace Verif.Json

/-- Part of the model of `src/lionherd_core/ln/_json_dump.py:218-347`. -/
abbrev Str := List Char

/-! ### Numbers and literals -/

/-- Characters of numbers and literals. Part of the model of `src/lionherd_core/ln/_json_dump.py:218-347`. -/
def tokChar (c : Char) : Bool := c.isDigit || c.isAlpha || c = '-' || c = '+' || c = '.'

/-- Part of the model of `src/lionherd_core/ln/_json_dump.py:218-347`. -/
def stripMinus : Str → Str
  | [] => []
  | c :: r => if c = '-' then r else c :: r

/-- Part of the model of `src/lionherd_core/ln/_json_dump.py:218-347`. -/
def stripSign : Str → Str
  | [] => []
  | c :: r => if c = '-' || c = '+' then r else c :: r

/-- After one or more digits. Part of the model of `src/lionherd_core/ln/_json_dump.py:218-347`. -/
def afterDigits : Str → Option Str
  | [] => none
  | c :: r => if c.isDigit then some (r.dropWhile Char.isDigit) else none

/-- After the integer part: zero, or digits that do not begin with zero. Part of the model of `src/lionherd_core/ln/_json_dump.py:218-347`. -/
def afterInt : Str → Option Str
  | [] => none
  | c :: r => if c = '0' then some r else afterDigits (c :: r)

/-- After the fraction, if there is one. Part of the model of `src/lionherd_core/ln/_json_dump.py:218-347`. -/
def afterFrac : Str → Option Str
  | [] => some []
  | c :: r => if c = '.' then afterDigits r else some (c :: r)

/-- After the exponent, if there is one. Part of the model of `src/lionherd_core/ln/_json_dump.py:218-347`. -/
def afterExp : Str → Option Str
  | [] => some []
  | c :: r => if c = 'e' || c = 'E' then afterDigits (stripSign r) else some (c :: r)

/-- A JSON number. Part of the model of `src/lionherd_core/ln/_json_dump.py:218-347`. -/
def isNumber (t : Str) : Bool := ((afterInt (stripMinus t)).bind afterFrac).bind afterExp == some []

/-- A number, `true`, `false` or `null`. Part of the model of `src/lionherd_core/ln/_json_dump.py:218-347`. -/
def isToken (t : Str) : Bool :=
  !t.isEmpty && t.all tokChar && (t == ['t', 'r', 'u', 'e'] || t == ['f', 'a', 'l', 's', 'e'] || t == ['n', 'u', 'l', 'l'] || isNumber t)

/-- JSON values. Part of the model of `src/lionherd_core/ln/_json_dump.py:218-347`. -/
inductive J where
  | token (t : Str) (h : isToken t = true)
  | str (s : Str)
  | arr (l : List J)
  | obj (l : List (Str × J))

/-! ### Writing -/

/-- A hexadecimal digit. Part of the model of `src/lionherd_core/ln/_json_dump.py:218-347`. -/
def hexDigit (n : Nat) : Char := if n < 10 then Char.ofNat (48 + n) else Char.ofNat (87 + n)

/-- Escapes of a JSON string as orjson writes them: quotation mark, backslash and control characters.
Part of the model of `src/lionherd_core/ln/_json_dump.py:218-347`. -/
def escape (c : Char) : Str :=
  if c = '"' then ['\\', '"']
  else if c = '\\' then ['\\', '\\']
  else if c = '\n' then ['\\', 'n']
  else if c = '\t' then ['\\', 't']
  else if c = '\r' then ['\\', 'r']
  else if c = '\x08' then ['\\', 'b']
  else if c = '\x0c' then ['\\', 'f']
  else if c.toNat < 32 then ['\\', 'u', '0', '0', hexDigit (c.toNat / 16), hexDigit (c.toNat % 16)]
  else [c]

/-- Part of the model of `src/lionherd_core/ln/_json_dump.py:218-347`. -/
def writeStr (s : Str) : Str := '"' :: (s.flatMap escape ++ ['"'])

/-- What separates and surrounds the items at nesting depth `d`: nothing, or line breaks and indentation.
Part of the model of `src/lionherd_core/ln/_json_dump.py:218-347`. -/
def gap (indent : Bool) (d : Nat) : Str := if indent then '\n' :: List.replicate (2 * d) ' ' else []

/-- Part of the model of `src/lionherd_core/ln/_json_dump.py:218-347`. -/
def colon (indent : Bool) : Str := if indent then [':', ' '] else [':']

mutual
/-- A value at nesting depth `d`. Part of the model of `src/lionherd_core/ln/_json_dump.py:218-347`. -/
def write (indent : Bool) (d : Nat) : J → Str
  | .token t _ => t
  | .str s => writeStr s
  | .arr [] => ['[', ']']
  | .arr (v :: l) => '[' :: (gap indent (d + 1) ++ write indent (d + 1) v ++ writeItems indent (d + 1) l ++ gap indent d ++ [']'])
  | .obj [] => ['{', '}']
  | .obj ((k, v) :: l) =>
    '{' :: (gap indent (d + 1) ++ writeStr k ++ colon indent ++ write indent (d + 1) v ++ writeFields indent (d + 1) l ++ gap indent d ++ ['}'])
/-- The further items of an array. Part of the model of `src/lionherd_core/ln/_json_dump.py:218-347`. -/
def writeItems (indent : Bool) (d : Nat) : List J → Str
  | [] => []
  | v :: l => ',' :: (gap indent d ++ write indent d v ++ writeItems indent d l)
/-- The further entries of an object. Part of the model of `src/lionherd_core/ln/_json_dump.py:218-347`. -/
def writeFields (indent : Bool) (d : Nat) : List (Str × J) → Str
  | [] => []
  | (k, v) :: l => ',' :: (gap indent d ++ writeStr k ++ colon indent ++ write indent d v ++ writeFields indent d l)
end

/-! ### Reading -/

/-- JSON white space. Part of the model of `src/lionherd_core/ln/_json_dump.py:218-347`. -/
def isWs (c : Char) : Bool := c = ' ' || c = '\n' || c = '\t' || c = '\r'

/-- Part of the model of `src/lionherd_core/ln/_json_dump.py:218-347`. -/
def skipWs (s : Str) : Str := s.dropWhile isWs

/-- After white space and the character `c`. Part of the model of `src/lionherd_core/ln/_json_dump.py:218-347`. -/
def expect (c : Char) (s : Str) : Option Str :=
  match skipWs s with
  | [] => none
  | d :: r => if d = c then some r else none

/-- The value of a hexadecimal digit. Part of the model of `src/lionherd_core/ln/_json_dump.py:218-347`. -/
def hexVal (c : Char) : Option Nat :=
  if c.isDigit then some (c.toNat - 48)
  else if 'a'.toNat ≤ c.toNat && c.toNat ≤ 'f'.toNat then some (c.toNat - 87)
  else if 'A'.toNat ≤ c.toNat && c.toNat ≤ 'F'.toNat then some (c.toNat - 55)
  else none

/-- Four hexadecimal digits. Part of the model of `src/lionherd_core/ln/_json_dump.py:218-347`. -/
def hex4 : Str → Option (Nat × Str)
  | a :: b :: c :: d :: r =>
    (hexVal a).bind fun w => (hexVal b).bind fun x => (hexVal c).bind fun y => (hexVal d).map fun z => (((w * 16 + x) * 16 + y) * 16 + z, r)
  | _ => none

/-- The second half of a surrogate pair whose first half is `hi`. Part of the model of `src/lionherd_core/ln/_json_dump.py:218-347`. -/
def lowHalf (hi : Nat) : Str → Option (Char × Str)
  | b :: u :: r =>
    if b = '\\' && u = 'u' then
      (hex4 r).bind fun p => if 0xDC00 ≤ p.1 && p.1 ≤ 0xDFFF then some (Char.ofNat (0x10000 + 0x400 * (hi - 0xD800) + (p.1 - 0xDC00)), p.2) else none
    else none
  | _ => none

/-- After `\u`. Part of the model of `src/lionherd_core/ln/_json_dump.py:218-347`. -/
def readHex (s : Str) : Option (Char × Str) :=
  (hex4 s).bind fun p =>
    if p.1 < 0xD800 || 0xDFFF < p.1 then some (Char.ofNat p.1, p.2)
    else if p.1 < 0xDC00 then lowHalf p.1 p.2
    else none

/-- The one-character escapes. Part of the model of `src/lionherd_core/ln/_json_dump.py:218-347`. -/
def simpleEscape (c : Char) : Option Char :=
  if c = '"' then some '"'
  else if c = '\\' then some '\\'
  else if c = '/' then some '/'
  else if c = 'b' then some '\x08'
  else if c = 'f' then some '\x0c'
  else if c = 'n' then some '\n'
  else if c = 'r' then some '\r'
  else if c = 't' then some '\t'
  else none

/-- After a backslash. Part of the model of `src/lionherd_core/ln/_json_dump.py:218-347`. -/
def readEscape : Str → Option (Char × Str)
  | [] => none
  | c :: r => if c = 'u' then readHex r else (simpleEscape c).map fun x => (x, r)

/-- One character of a string. Part of the model of `src/lionherd_core/ln/_json_dump.py:218-347`. -/
def readChar : Str → Option (Char × Str)
  | [] => none
  | c :: r => if c = '\\' then readEscape r else if c.toNat < 32 then none else some (c, r)

/-- The rest of a string after its opening quotation mark; the fuel is the length of the text.
Part of the model of `src/lionherd_core/ln/_json_dump.py:218-347`. -/
def readStr : Nat → Str → Option (Str × Str)
  | 0, _ => none
  | n + 1, s =>
    if s.head? = some '"' then some ([], s.tail)
    else (readChar s).bind fun p => (readStr n p.2).map fun q => (p.1 :: q.1, q.2)

/-- A number or literal. Part of the model of `src/lionherd_core/ln/_json_dump.py:218-347`. -/
def readTok (s : Str) : Option (J × Str) :=
  if h : isToken (s.takeWhile tokChar) = true then some (.token (s.takeWhile tokChar) h, s.dropWhile tokChar) else none

mutual
/-- A value, after white space; the fuel is more than the length of the text. Part of the model of `src/lionherd_core/ln/_json_dump.py:218-347`. -/
def readVal : Nat → Str → Option (J × Str)
  | 0, _ => none
  | n + 1, s =>
    match expect '"' s with
    | some r => (readStr r.length r).map fun p => (.str p.1, p.2)
    | none =>
      match expect '[' s with
      | some r => readArr n r
      | none =>
        match expect '{' s with
        | some r => readObj n r
        | none => readTok (skipWs s)
/-- The rest of an array. Part of the model of `src/lionherd_core/ln/_json_dump.py:218-347`. -/
def readArr : Nat → Str → Option (J × Str)
  | 0, _ => none
  | n + 1, s =>
    match expect ']' s with
    | some r => some (.arr [], r)
    | none => (readItems n s).map fun p => (.arr p.1, p.2)
/-- The rest of an object. Part of the model of `src/lionherd_core/ln/_json_dump.py:218-347`. -/
def readObj : Nat → Str → Option (J × Str)
  | 0, _ => none
  | n + 1, s =>
    match expect '}' s with
    | some r => some (.obj [], r)
    | none => (readFields n s).map fun p => (.obj p.1, p.2)
/-- One or more items and the closing bracket. Part of the model of `src/lionherd_core/ln/_json_dump.py:218-347`. -/
def readItems : Nat → Str → Option (List J × Str)
  | 0, _ => none
  | n + 1, s =>
    (readVal n s).bind fun p =>
      match expect ',' p.2 with
      | some r => (readItems n r).map fun q => (p.1 :: q.1, q.2)
      | none => (expect ']' p.2).map fun r => ([p.1], r)
/-- One or more entries and the closing brace. Part of the model of `src/lionherd_core/ln/_json_dump.py:218-347`. -/
def readFields : Nat → Str → Option (List (Str × J) × Str)
  | 0, _ => none
  | n + 1, s =>
    (expect '"' s).bind fun k =>
      (readStr k.length k).bind fun kp =>
        (expect ':' kp.2).bind fun r =>
          (readVal n r).bind fun p =>
            match expect ',' p.2 with
            | some r' => (readFields n r').map fun q => ((kp.1, p.1) :: q.1, q.2)
            | none => (expect '}' p.2).map fun r' => ([(kp.1, p.1)], r')
end

/-- `orjson.loads`: one value with white space around it; `none`: `JSONDecodeError`.
Part of the model of `src/lionherd_core/ln/_json_dump.py:218-347`. -/
def loads (s : Str) : Option J :=
  (readVal (3 * s.length + 1) s).bind fun p => if skipWs p.2 = [] then some p.1 else none

end Verif.Json
