import Verif.Model.Resolver
import Verif.Model.Fuzzy

/-!
# Model of `parse_lndl`: from the text of a response to the validated output

`src/lionherd_core/lndl/resolver.py:309-366`, composed of the models of the lexer, the parser and the resolver.
-/

namespace Verif.Lndl

open Verif.Parser (Str)

/-- An exception of the parser or of the resolver. Serves `afterParsing` (`resolver.py:330-366`). -/
inductive Err where
  | parse (e : Parser.PErr)
  | resolve (e : Resolver.RErr)
  deriving DecidableEq, Repr

variable {ν κ μ : Type}

/-- Step 3 to 5, `resolver.py:330-366`. -/
def afterParsing (ext : Resolver.Ext ν κ μ) (specs : List Resolver.Spec) (p : Parser.Program) : Except Err (Resolver.Output ν κ μ) :=
  match Resolver.resolveProgram ext p specs with
  | .ok o => .ok o
  | .error e => .error (.resolve e)

/-- `parse_lndl(response, operable)`, `resolver.py:309-366`. -/
def parseLndl (cc : Lexer.CharClass) (env : Parser.Env) (ext : Resolver.Ext ν κ μ) (specs : List Resolver.Spec) (response : Str) :
    Except Err (Resolver.Output ν κ μ) :=
  match Parser.parseText cc env response with
  | .error e => .error (.parse e)
  | .ok p => afterParsing ext specs p

/-- An exception of `parse_lndl_fuzzy`. Serves `parseLndlFuzzy` (`fuzzy.py:135-465`). -/
inductive FErr where
  | parse (e : Parser.PErr)
  | fuzzy (e : Fuzzy.Err)
  deriving DecidableEq, Repr

/-- Everything after parsing. Serves `parseLndlFuzzy` (`fuzzy.py:135-465`). -/
def afterParsingFuzzy (fenv : Fuzzy.Env) (ext : Resolver.Ext ν κ μ) (th : Fuzzy.Thresholds) (caps : Option (List Str)) (p : Parser.Program) :
    Except FErr (Resolver.Output ν κ μ) :=
  match Fuzzy.parseFuzzy fenv ext th caps p with
  | .ok o => .ok o
  | .error e => .error (.fuzzy e)

/-- `parse_lndl_fuzzy(response, operable, capabilities, threshold...)`, `fuzzy.py:135-465`.  The capabilities are checked first (`fuzzy.py:200-211`). -/
def parseLndlFuzzy (cc : Lexer.CharClass) (env : Parser.Env) (fenv : Fuzzy.Env) (ext : Resolver.Ext ν κ μ) (th : Fuzzy.Thresholds) (caps : Option (List Str))
    (response : Str) : Except FErr (Resolver.Output ν κ μ) :=
  match Fuzzy.active fenv caps with
  | .error e => .error (.fuzzy e)
  | .ok _ =>
    match Parser.parseText cc env response with
    | .error e => .error (.parse e)
    | .ok p => afterParsingFuzzy fenv ext th caps p

end Verif.Lndl
