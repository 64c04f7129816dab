/-!
# Model of `src/lionherd_core/lndl/lexer.py`

Texts are lists of characters (Python strings are sequences of code points).  The character classes `str.isalpha`, `str.isalnum`, `str.isdigit` are parameters: the Unicode tables are
not modelled.  `Lexer.pos` is represented by the remaining text.  Where the code calls `advance` once per consumed character, the model consumes a block and moves the
position over it (`move`).
-/

namespace Verif.Lexer

/-- `TokenType`, `lexer.py:27-55`. -/
inductive Kind where
  | lvarOpen | lvarClose | lactOpen | lactClose | outOpen | outClose
  | ident | num | str
  | dot | comma | colon | lbracket | rbracket | lparen | rparen | gt
  | newline | eof
  deriving DecidableEq, Repr

/-- `Token`, `lexer.py:58-73`. -/
structure Token where
  kind : Kind
  value : List Char
  line : Nat
  column : Nat
  deriving DecidableEq, Repr

/-- Character classes of Python strings. Serves `isIdChar` (`lexer.py:154-164`). -/
structure CharClass where
  isAlpha : Char → Bool
  isAlnum : Char → Bool
  isDigit : Char → Bool

/-- What is used of the Unicode tables: letters and digits are alphanumeric; and for some ASCII characters what they are not.
Built on `Kind` (`lexer.py:27-55`). -/
structure CharClass.Ok (cc : CharClass) : Prop where
  alpha_alnum : ∀ c, cc.isAlpha c = true → cc.isAlnum c = true
  digit_alnum : ∀ c, cc.isDigit c = true → cc.isAlnum c = true
  punct : ∀ c ∈ ['"', '\'', '\\', '\n', '\t', '\r', ' ', '.', ',', ':', '[', ']', '(', ')', '{', '}', '<', '>', '/', '-', '_'],
    cc.isAlnum c = false

/-- `advance`, `lexer.py:140-147`: a newline sets the column to 0 (not 1). -/
def stepPos (p : Nat × Nat) (c : Char) : Nat × Nat := if c = '\n' then (p.1 + 1, 0) else (p.1, p.2 + 1)

/-- The position after a block of characters. Built on `stepPos` (`lexer.py:140-147`). -/
def move (p : Nat × Nat) (cs : List Char) : Nat × Nat := cs.foldl stepPos p

/-- `char in " \t\r"`. Serves `lexOne` (`lexer.py:239-362`). -/
def isWs (c : Char) : Bool := c == ' ' || c == '\t' || c == '\r'

/-- Characters of `read_identifier`, `lexer.py:154-164`. -/
def isIdChar (cc : CharClass) (c : Char) : Bool := cc.isAlnum c || c == '_'

/-- Characters of `read_number`, `lexer.py:166-176`. -/
def isNumChar (cc : CharClass) (c : Char) : Bool := cc.isDigit c || c == '.'

/-- Value of an escape sequence, `lexer.py:202-217`. -/
def unescape (c : Char) : Char := if c = 'n' then '\n' else if c = 't' then '\t' else if c = 'r' then '\r' else c

/-- The body of `read_string` after the opening quote, `lexer.py:195-224`: the value, and the number of characters consumed (closing quote included, if there is one). -/
def strBody (q : Char) : List Char → List Char × Nat
  | [] => ([], 0)
  | [c] => if c = q then ([], 1) else if c = '\\' then ([], 1) else ([c], 1)
  | c :: e :: r =>
    if c = q then ([], 1)
    else if c = '\\' then (unescape e :: (strBody q r).1, (strBody q r).2 + 2)
    else (c :: (strBody q (e :: r)).1, (strBody q (e :: r)).2 + 1)

/-- Does the text start with `p`?  (`self.text[pos : pos + k] == p`.) Serves `lexTag` (`lexer.py:252-293`). -/
def startsWith (p : List Char) (t : List Char) : Bool := p.isPrefixOf t

/-- Kind of a punctuation character. Serves `lexOne` (`lexer.py:239-362`). -/
def punct (c : Char) : Option Kind :=
  if c = '.' then some .dot else if c = ',' then some .comma else if c = ':' then some .colon
  else if c = '[' then some .lbracket else if c = ']' then some .rbracket else if c = '(' then some .lparen
  else if c = ')' then some .rparen else if c = '}' then some .outClose else if c = '>' then some .gt else none

/-- Result of one iteration: token emitted (kind and value), number of characters consumed, `in_out_block` afterwards.
Serves `lexTag` (`lexer.py:252-293`). -/
structure One where
  tok : Option (Kind × List Char)
  n : Nat
  inOut : Bool
  deriving DecidableEq, Repr

/-- The `<` branch, `lexer.py:252-293`. -/
def lexTag (inOut : Bool) (t : List Char) : One :=
  if startsWith "</lvar>".toList t then ⟨some (.lvarClose, "</lvar>".toList), 7, inOut⟩
  else if startsWith "</lact>".toList t then ⟨some (.lactClose, "</lact>".toList), 7, inOut⟩
  else if startsWith "<lvar".toList t then ⟨some (.lvarOpen, "<lvar".toList), 5, inOut⟩
  else if startsWith "<lact".toList t then ⟨some (.lactOpen, "<lact".toList), 5, inOut⟩
  else ⟨none, 1, inOut⟩

/-- Does a number follow?  (`peek_char` is a digit.) Serves `lexOne` (`lexer.py:239-362`). -/
def digitNext (cc : CharClass) : List Char → Bool
  | [] => false
  | d :: _ => cc.isDigit d

/-- One iteration of the loop of `tokenize` on the text `c :: r`, `lexer.py:239-362`. -/
def lexOne (cc : CharClass) (inOut : Bool) (c : Char) (r : List Char) : One :=
  if isWs c then ⟨none, ((c :: r).takeWhile isWs).length, inOut⟩
  else if c = '\n' then ⟨some (.newline, ['\n']), 1, inOut⟩
  else if c = '<' then lexTag inOut (c :: r)
  else if startsWith "OUT{".toList (c :: r) then ⟨some (.outOpen, "OUT{".toList), 4, true⟩
  else if cc.isAlpha c || c == '_' then
    ⟨some (.ident, (c :: r).takeWhile (isIdChar cc)), ((c :: r).takeWhile (isIdChar cc)).length, inOut⟩
  else if c = '-' ∧ inOut = true ∧ digitNext cc r = true then
    ⟨some (.num, '-' :: r.takeWhile (isNumChar cc)), (r.takeWhile (isNumChar cc)).length + 1, inOut⟩
  else if cc.isDigit c then
    ⟨some (.num, (c :: r).takeWhile (isNumChar cc)), ((c :: r).takeWhile (isNumChar cc)).length, inOut⟩
  else if (c = '"' ∨ c = '\'') ∧ inOut = true then
    ⟨some (.str, (strBody c r).1), (strBody c r).2 + 1, inOut⟩
  else
    match punct c with
    | some k => ⟨some (k, [c]), 1, if c = '}' then false else inOut⟩
    | none => ⟨none, 1, inOut⟩

/-- Token at a position. Built on `Kind` (`lexer.py:27-55`). -/
def mkTok (p : Nat × Nat) (k : Kind) (v : List Char) : Token := { kind := k, value := v, line := p.1, column := p.2 }

/-- Prepend a token, if any. Built on `Kind` (`lexer.py:27-55`). -/
def push (p : Nat × Nat) (o : Option (Kind × List Char)) (ts : List Token) : List Token :=
  match o with
  | none => ts
  | some (k, v) => mkTok p k v :: ts

/-- The loop of `tokenize`.  `fuel` bounds the iterations; `none` if it runs out (it does not, `C45_total`). Built on `Token` (`lexer.py:58-73`). -/
def go (cc : CharClass) : Nat → Bool → Nat × Nat → List Char → Option (List Token)
  | _, _, p, [] => some [mkTok p .eof []]
  | 0, _, _, _ :: _ => none
  | fuel + 1, inOut, p, c :: r =>
    (go cc fuel (lexOne cc inOut c r).inOut (move p ((c :: r).take (lexOne cc inOut c r).n)) ((c :: r).drop (lexOne cc inOut c r).n)).map
      (push p (lexOne cc inOut c r).tok)

/-- `Lexer(text).tokenize()`. Built on `Token` (`lexer.py:58-73`). -/
def tokenize (cc : CharClass) (text : List Char) : Option (List Token) := go cc text.length false (1, 1) text

/-! ### ASCII character classes, for examples -/

/-- The character tests of `lexer.py:161, 173, 305, 315, 324` on ASCII characters. -/
def asciiClass : CharClass where
  isAlpha := Char.isAlpha
  isAlnum := Char.isAlphanum
  isDigit := Char.isDigit

end Verif.Lexer
