import Verif.Model.Lexer
import Verif.Py.Basic
import Verif.Py.Dict

/-!
# Model of `src/lionherd_core/lndl/parser.py`

The parser's state `(tokens, pos)` is represented by the suffix of tokens from `pos` on (never empty, its last token being `EOF`).  Error messages are dropped; the warning about
reserved action names (`parser.py:470-477`) is not modelled.
-/

namespace Verif.Parser

open Verif.Lexer

/-- Names and text. Serves `expect` (`parser.py:186-202`). -/
abbrev Str := List Char

/-- Errors: `ParseError`, or the `ValueError` of `int(...)`/`float(...)`.  `fuel` stands for non-termination.
Serves `expect` (`parser.py:186-202`). -/
inductive PErr where
  | parse | value | fuel
  deriving DecidableEq, Repr

/-- Functions of the Python runtime: `\s`/`str.isspace`, and whether `int(s)` (no `.` in `s`) or `float(s)` accepts the spelling of a number.
Serves `parseDecl` (`parser.py:281-382`). -/
structure Env where
  isSpace : Char → Bool
  numOk : Str → Bool

/-- Type of `current_token()`, `parser.py:156-164`. -/
def cur (ts : List Token) : Kind :=
  match ts with
  | [] => .eof
  | t :: _ => t.kind

/-- Value of `current_token()`. Serves `expect` (`parser.py:186-202`). -/
def curVal (ts : List Token) : Str :=
  match ts with
  | [] => []
  | t :: _ => t.value

/-- `advance`, `parser.py:181-184`: stays on the last token. -/
def adv : List Token → List Token
  | [] => []
  | [t] => [t]
  | _ :: u :: r => u :: r

/-- `skip_newlines`, `parser.py:214-217`. -/
def skipNl : List Token → List Token
  | [] => []
  | [t] => [t]
  | t :: u :: r => if t.kind = .newline then skipNl (u :: r) else t :: u :: r

/-- `expect`, `parser.py:186-202`. -/
def expect (k : Kind) (ts : List Token) : Except PErr (Str × List Token) :=
  if cur ts = k then .ok (curVal ts, adv ts) else .error .parse

/-! ### Declarations -/

/-- The header of a declaration: raw/direct (`<lvar alias>`), or namespaced with or without an explicit alias.
Serves `Header.alias` (`parser.py:314-334`). -/
inductive Header where
  | raw (alias : Str)
  | named (model field : Str)
  | aliased (model field alias : Str)
  deriving DecidableEq, Repr

/-- The alias under which the declaration is known, `parser.py:314-334`, `412-428`. -/
def Header.alias : Header → Str
  | .raw a => a
  | .named _ f => f
  | .aliased _ _ a => a

/-- `Lvar`/`RLvar`/`Lact` nodes (`ast.py`): header and stripped content (or call). Serves `parseDecl` (`parser.py:281-382`). -/
structure Decl where
  header : Header
  content : Str
  deriving DecidableEq, Repr

/-- Rest of the header after `Model.`: field and optional alias. Serves `parseNames` (`parser.py:307-334`). -/
def parseField (m : Str) (ts : List Token) : Except PErr (Header × List Token) := do
  let (f, ts) ← expect .ident ts
  if cur ts = .ident then .ok (.aliased m f (curVal ts), adv ts) else .ok (.named m f, ts)

/-- Identifiers of a tag, `parser.py:307-334` and `405-428`. -/
def parseNames (ts : List Token) : Except PErr (Header × List Token) := do
  let (a, ts) ← expect .ident (skipNl ts)
  if cur ts = .dot then parseField a (adv ts) else .ok (.raw a, ts)

/-- The literal pieces of the search pattern, each preceded by `\s+`, `parser.py:347-357`, `438-447`. -/
def pieces : Header → List Str
  | .raw a => [a]
  | .named m f => [m ++ '.' :: f]
  | .aliased m f a => [m ++ '.' :: f, a]

/-- Remove a literal prefix. Serves the model of `parser.py:281-382`. -/
def strip? (p t : Str) : Option Str := if startsWith p t then some (t.drop p.length) else none

/-- `\s+piece`, for each piece.  Pieces start with an identifier character, which is no white space, so that the greedy `\s+` needs no backtracking.
Serves the model of `parser.py:281-382`. -/
def matchPieces (env : Env) : List Str → Str → Option Str
  | [], t => some t
  | p :: ps, t =>
    match t with
    | [] => none
    | c :: r => if env.isSpace c then (strip? p (r.dropWhile env.isSpace)).bind (matchPieces env ps) else none

/-- `(.*?)close`: the text before the first occurrence of `close`. Serves the model of `parser.py:281-382`. -/
def upTo (close : Str) : Str → Option Str
  | [] => if startsWith close [] then some [] else none
  | c :: r => if startsWith close (c :: r) then some [] else (upTo close r).map (c :: ·)

/-- The pattern at one position of the text. Serves the model of `parser.py:281-382`. -/
def matchHere (env : Env) (opn close : Str) (ps : List Str) (t : Str) : Option Str := do
  let t ← strip? opn t
  let t ← matchPieces env ps t
  let t ← strip? ['>'] (t.dropWhile env.isSpace)
  upTo close t

/-- `re.search(pattern, source_text, re.DOTALL)`: group 1 of the leftmost match. Serves the model of `parser.py:281-382`. -/
def search (m : Str → Option Str) : Str → Option Str
  | [] => m []
  | c :: r => (m (c :: r)).orElse (fun _ => search m r)

/-- `str.strip()`. Serves the model of `parser.py:281-382`. -/
def stripWs (env : Env) (t : Str) : Str := ((t.dropWhile env.isSpace).reverse.dropWhile env.isSpace).reverse

/-- Skip to the closing tag and consume it, `parser.py:370-376`, `460-466`. -/
def skipTo (k : Kind) : List Token → Except PErr (List Token)
  | [] => .error .parse
  | t :: r => if t.kind = k then .ok (adv (t :: r)) else if t.kind = .eof then .error .parse else skipTo k r

/-- Spelling of the tags. Serves the model of `parser.py:281-382`. -/
def openStr (act : Bool) : Str := if act then "<lact".toList else "<lvar".toList

/-- Serves the model of `parser.py:281-382`. -/
def closeStr (act : Bool) : Str := if act then "</lact>".toList else "</lvar>".toList

/-- Token types of the tags. Serves `parseDecl` (`parser.py:281-382`). -/
def openKind (act : Bool) : Kind := if act then .lactOpen else .lvarOpen

/-- Serves `parseDecl` (`parser.py:281-382`). -/
def closeKind (act : Bool) : Kind := if act then .lactClose else .lvarClose

/-- The content found for a header in the source text. Serves `parseDecl` (`parser.py:281-382`). -/
def contentOf (env : Env) (src : Str) (act : Bool) (h : Header) : Option Str :=
  (search (matchHere env (openStr act) (closeStr act) (pieces h)) src).map (stripWs env)

/-- `parse_lvar` (`act = false`), `parser.py:281-382`; `parse_lact` (`act = true`), `parser.py:384-479`. -/
def parseDecl (env : Env) (src : Str) (act : Bool) (ts : List Token) : Except PErr (Decl × List Token) := do
  let (_, ts) ← expect (openKind act) ts
  let (h, ts) ← parseNames ts
  let (_, ts) ← expect .gt ts
  match contentOf env src act h with
  | none => .error .parse
  | some c => do
    let ts ← skipTo (closeKind act) (skipNl ts)
    .ok (⟨h, c⟩, ts)

/-! ### `OUT{}` -/

/-- Values of an OUT field.  Numbers keep their spelling. Serves `identVal` (`parser.py:575-587`). -/
inductive OutVal where
  | refs (names : List Str)
  | str (s : Str)
  | num (raw : Str)
  | bool (b : Bool)
  deriving DecidableEq, Repr

/-- The loop over an array, `parser.py:527-551`, from after the `[` to before the `]`. -/
def parseRefs : Nat → List Token → Except PErr (List Str × List Token)
  | 0, _ => .error .fuel
  | fuel + 1, ts =>
    if cur (skipNl ts) = .rbracket ∨ cur (skipNl ts) = .eof then .ok ([], skipNl ts)
    else if cur (skipNl ts) = .ident then
      (parseRefs fuel (if cur (skipNl (adv (skipNl ts))) = .comma then adv (skipNl (adv (skipNl ts))) else skipNl (adv (skipNl ts)))).map
        (fun r => (curVal (skipNl ts) :: r.1, r.2))
    else .error .parse

/-- `value.lower()`; only the ASCII letters of `true`/`false` matter. Serves `identVal` (`parser.py:575-587`). -/
def lower (s : Str) : Str := s.map Char.toLower

/-- Value of an identifier, `parser.py:575-587`. -/
def identVal (v : Str) : OutVal :=
  if lower v = "true".toList then .bool true else if lower v = "false".toList then .bool false else .refs [v]

/-- Value of a field, `parser.py:520-591`: `none` when a token of another type is skipped. -/
def parseVal (env : Env) (fuel : Nat) (ts : List Token) : Except PErr (Option OutVal × List Token) :=
  match cur ts with
  | .lbracket => do
    let (rs, ts) ← parseRefs fuel (skipNl (adv ts))
    .ok (some (.refs rs), if cur ts = .rbracket then adv ts else ts)
  | .str => .ok (some (.str (curVal ts)), adv ts)
  | .num => if env.numOk (curVal ts) then .ok (some (.num (curVal ts)), adv ts) else .error .value
  | .ident => .ok (some (identVal (curVal ts)), adv ts)
  | _ => .ok (none, adv ts)

/-- The dictionary `fields` after an assignment (or a skipped value). Serves `parseFields` (`parser.py:503-597`). -/
def setOpt (d : Dict Str OutVal) (f : Str) (v : Option OutVal) : Dict Str OutVal :=
  match v with
  | none => d
  | some v => d.set f v

/-- After a value: newlines, one optional comma, `parser.py:593-597`. -/
def sepOut (ts : List Token) : List Token := if cur (skipNl ts) = .comma then adv (skipNl ts) else skipNl ts

/-- The loop over fields, `parser.py:503-597`. -/
def parseFields (env : Env) : Nat → Dict Str OutVal → List Token → Except PErr (Dict Str OutVal × List Token)
  | 0, _, _ => .error .fuel
  | fuel + 1, d, ts =>
    if cur (skipNl ts) = .outClose ∨ cur (skipNl ts) = .eof then .ok (d, skipNl ts)
    else if cur (skipNl ts) = .ident then do
      let (_, r) ← expect .colon (skipNl (adv (skipNl ts)))
      let (v, r) ← parseVal env fuel (skipNl r)
      parseFields env fuel (setOpt d (curVal (skipNl ts)) v) (sepOut r)
    else parseFields env fuel d (adv (skipNl ts))

/-- `parse_out_block`, `parser.py:481-602`. -/
def parseOut (env : Env) (ts : List Token) : Except PErr (Dict Str OutVal × List Token) := do
  let (_, r) ← expect .outOpen ts
  let (d, r) ← parseFields env (ts.length + 1) [] (skipNl r)
  .ok (d, if cur r = .outClose then adv r else r)

/-! ### Programs -/

/-- `Program` (`ast.py`). Serves `parseLoop` (`parser.py:244-279`). -/
structure Program where
  lvars : List Decl
  lacts : List Decl
  out : Option (Dict Str OutVal)
  deriving DecidableEq, Repr

/-- Add a declaration. Serves `parseLoop` (`parser.py:244-279`). -/
def addDecl (act : Bool) (d : Decl) (p : Program) : Program :=
  if act then { p with lacts := p.lacts ++ [d] } else { p with lvars := p.lvars ++ [d] }

/-- The loop of `parse`, `parser.py:244-279`. -/
def parseLoop (env : Env) (src : Str) : Nat → List Str → Program → List Token → Except PErr Program
  | 0, _, _, _ => .error .fuel
  | fuel + 1, aliases, p, ts =>
    if cur (skipNl ts) = .eof then .ok p
    else if cur (skipNl ts) = .lvarOpen then do
      let (d, r) ← parseDecl env src false (skipNl ts)
      if d.header.alias ∈ aliases then .error .parse
      else parseLoop env src fuel (d.header.alias :: aliases) (addDecl false d p) r
    else if cur (skipNl ts) = .lactOpen then do
      let (d, r) ← parseDecl env src true (skipNl ts)
      if d.header.alias ∈ aliases then .error .parse
      else parseLoop env src fuel (d.header.alias :: aliases) (addDecl true d p) r
    else if cur (skipNl ts) = .outOpen then do
      let (o, _) ← parseOut env (skipNl ts)
      .ok { p with out := some o }
    else parseLoop env src fuel aliases p (adv (skipNl ts))

/-- `Parser(tokens, source_text=src).parse()`, `parser.py:219-279`. -/
def parse (env : Env) (src : Str) (ts : List Token) : Except PErr Program :=
  parseLoop env src (ts.length + 1) [] ⟨[], [], none⟩ ts

/-- Lexer and parser together, as used by `parse_lndl_fuzzy` (`fuzzy.py:189-192`). -/
def parseText (cc : CharClass) (env : Env) (src : Str) : Except PErr Program :=
  match tokenize cc src with
  | none => .error .fuel
  | some ts => parse env src ts

/-! ### ASCII environment, for examples -/

/-- Accepted by `int`/`float`: optional minus, digits with at most one dot. Part of the model of `parser.py:470-477`. -/
def asciiNumOk (s : Str) : Bool :=
  decide ((s.filter (· == '.')).length ≤ 1) && (s.drop 1).all (fun c => c.isDigit || c == '.') && s.any Char.isDigit

/-- Part of the model of `parser.py:470-477`. -/
def asciiEnv : Env where
  isSpace := Char.isWhitespace
  numOk := asciiNumOk

end Verif.Parser
