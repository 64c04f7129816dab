import Verif.Py.Dict
import Verif.Py.Basic

/-!
# Model of `parse_function_call` with its literal arguments

`src/lionherd_core/libs/schema_handlers/_function_call_parser.py:10-47` on top of `ast.parse` and `ast.literal_eval` of the standard library.
The parser is not modelled: an expression is given as its syntax tree.  Of the syntax, `other` stands for every expression that
`literal_eval` refuses at once (names, attributes, calls, comprehensions, starred arguments, ...).  Constants are opaque with the number
operations that `literal_eval` performs.  Left out: `RecursionError` and `MemoryError` on very deep expressions.
-/

namespace Verif.CallParse

/-- What `literal_eval` does with constants: `type(c) in (int, float, complex)`, whether it is complex, and the arithmetic.
Serves `posLoop` (`_function_call_parser.py:32-34`). -/
structure Num (κ : Type) where
  isNum : κ → Bool
  isComplex : κ → Bool
  neg : κ → κ
  add : κ → κ → κ
  sub : κ → κ → κ

mutual
/-- Expressions.  `unary`: `some true` is `-`, `some false` is `+`, `none` another operator; `binop` likewise with `some true` for `-`.
`emptySet` is the call `set()`. Serves `posLoop` (`_function_call_parser.py:32-34`). -/
inductive Expr (κ : Type) where
  | const (c : κ)
  | tuple (es : Exprs κ)
  | list (es : Exprs κ)
  | set (es : Exprs κ)
  | emptySet
  | dict (es : Entries κ)
  | unary (op : Option Bool) (e : Expr κ)
  | binop (op : Option Bool) (l r : Expr κ)
  | other
/-- Elements of a display. Serves the model of `_function_call_parser.py:32-34`. -/
inductive Exprs (κ : Type) where
  | nil
  | cons (e : Expr κ) (es : Exprs κ)
/-- Entries of a dict display: `k: v` or `**v`. Serves the model of `_function_call_parser.py:32-34`. -/
inductive Entries (κ : Type) where
  | nil
  | pair (k v : Expr κ) (es : Entries κ)
  | unpack (v : Expr κ) (es : Entries κ)
end

mutual
/-- Values.  Simplified: a set or dict is given by its elements as written, without removing duplicates.
Serves `posLoop` (`_function_call_parser.py:32-34`). -/
inductive Val (κ : Type) where
  | const (c : κ)
  | tuple (vs : Vals κ)
  | list (vs : Vals κ)
  | set (vs : Vals κ)
  | dict (vs : Pairs κ)
/-- Serves the model of `_function_call_parser.py:32-34`. -/
inductive Vals (κ : Type) where
  | nil
  | cons (v : Val κ) (vs : Vals κ)
/-- Serves the model of `_function_call_parser.py:32-34`. -/
inductive Pairs (κ : Type) where
  | nil
  | cons (k v : Val κ) (vs : Pairs κ)
end

variable {κ : Type}

mutual
/-- Whether `hash(v)` succeeds: lists, sets and dicts are unhashable, a tuple is hashable if its elements are.
Serves the model of `_function_call_parser.py:32-34`. -/
def hashable : Val κ → Bool
  | .const _ => true
  | .tuple vs => hashables vs
  | .list _ => false
  | .set _ => false
  | .dict _ => false
/-- Serves the model of `_function_call_parser.py:32-34`. -/
def hashables : Vals κ → Bool
  | .nil => true
  | .cons v vs => hashable v && hashables vs
end

/-- `_convert_num` of `ast.literal_eval`. Serves the model of `_function_call_parser.py:32-34`. -/
def convNum (N : Num κ) : Expr κ → Except Exc κ
  | .const c => if N.isNum c then .ok c else .error .valueError
  | _ => .error .valueError

/-- `-operand` or `+operand`. Serves the model of `_function_call_parser.py:32-34`. -/
def signed (N : Num κ) (minus : Bool) (c : κ) : κ := if minus then N.neg c else c

/-- `_convert_signed_num` of `ast.literal_eval`. Serves the model of `_function_call_parser.py:32-34`. -/
def convSigned (N : Num κ) : Expr κ → Except Exc κ
  | .unary (some minus) e =>
    match convNum N e with
    | .error x => .error x
    | .ok c => .ok (signed N minus c)
  | .unary none _ => .error .valueError
  | e => convNum N e

/-- `left + right` or `left - right`. Serves the model of `_function_call_parser.py:32-34`. -/
def combine (N : Num κ) (minus : Bool) (a b : κ) : κ := if minus then N.sub a b else N.add a b

/-- The `BinOp` case of `_convert`: a real and an imaginary part; anything else is malformed. Serves the model of `_function_call_parser.py:32-34`. -/
def convBin (N : Num κ) (minus : Bool) (l r : Expr κ) : Except Exc κ :=
  match convSigned N l with
  | .error x => .error x
  | .ok a =>
    match convNum N r with
    | .error x => .error x
    | .ok b => if N.isComplex a = false ∧ N.isComplex b = true then .ok (combine N minus a b) else .error .valueError

/-- A number as a value. Serves the model of `_function_call_parser.py:32-34`. -/
def ofNum : Except Exc κ → Except Exc (Val κ)
  | .error x => .error x
  | .ok c => .ok (.const c)

mutual
/-- `_convert` of `ast.literal_eval`. Serves `posLoop` (`_function_call_parser.py:32-34`). -/
def conv (N : Num κ) : Expr κ → Except Exc (Val κ)
  | .const c => .ok (.const c)
  | .tuple es =>
    match convAll N es with
    | .error x => .error x
    | .ok vs => .ok (.tuple vs)
  | .list es =>
    match convAll N es with
    | .error x => .error x
    | .ok vs => .ok (.list vs)
  | .set es =>
    match convSet N es with
    | .error x => .error x
    | .ok vs => .ok (.set vs)
  | .emptySet => .ok (.set .nil)
  | .dict es =>
    match convDict N es with
    | .error x => .error x
    | .ok vs => .ok (.dict vs)
  | .unary op e => ofNum (convSigned N (.unary op e))
  | .binop (some minus) l r => ofNum (convBin N minus l r)
  | .binop none _ _ => .error .valueError
  | .other => .error .valueError
/-- `map(_convert, node.elts)` for tuples and lists. Serves the model of `_function_call_parser.py:32-34`. -/
def convAll (N : Num κ) : Exprs κ → Except Exc (Vals κ)
  | .nil => .ok .nil
  | .cons e es =>
    match conv N e with
    | .error x => .error x
    | .ok v =>
      match convAll N es with
      | .error x => .error x
      | .ok vs => .ok (.cons v vs)
/-- `set(map(_convert, node.elts))`: each element is hashed before the next is converted. Serves the model of `_function_call_parser.py:32-34`. -/
def convSet (N : Num κ) : Exprs κ → Except Exc (Vals κ)
  | .nil => .ok .nil
  | .cons e es =>
    match conv N e with
    | .error x => .error x
    | .ok v =>
      if hashable v = false then .error .typeError
      else
        match convSet N es with
        | .error x => .error x
        | .ok vs => .ok (.cons v vs)
/-- `dict(zip(map(_convert, node.keys), map(_convert, node.values)))`; the key of `**v` is `None`, which is malformed.
Serves the model of `_function_call_parser.py:32-34`. -/
def convDict (N : Num κ) : Entries κ → Except Exc (Pairs κ)
  | .nil => .ok .nil
  | .pair k v es =>
    match conv N k with
    | .error x => .error x
    | .ok k' =>
      match conv N v with
      | .error x => .error x
      | .ok v' =>
        if hashable k' = false then .error .typeError
        else
          match convDict N es with
          | .error x => .error x
          | .ok vs => .ok (.cons k' v' vs)
  | .unpack _ _ => .error .valueError
end

/-- The expression in the place of the function. Serves `toolName` (`_function_call_parser.py:20-27`). -/
inductive Func where
  | name (id : String)
  | attr (s : String)
  | other
  deriving DecidableEq, Repr

/-- What `ast.parse(call_str, mode="eval").body` is: a `SyntaxError`, something else than a call, or a call with its positional arguments
and its keywords (`none`: `**value`). Serves `parse` (`_function_call_parser.py:10-47`). -/
inductive Body (κ : Type) where
  | syntaxError
  | notCall
  | call (f : Func) (args : List (Expr κ)) (kws : List (Option String × Expr κ))

/-- The key of a positional argument, `_function_call_parser.py:34`. -/
def posKey (i : Nat) : String := "_pos_" ++ toString i

/-- The loop over positional arguments, `_function_call_parser.py:32-34`. -/
def posLoop (N : Num κ) : Nat → List (Expr κ) → Dict String (Val κ) → Except Exc (Dict String (Val κ))
  | _, [], d => .ok d
  | i, e :: es, d =>
    match conv N e with
    | .error x => .error x
    | .ok v => posLoop N (i + 1) es (d.set (posKey i) v)

/-- The loop over keywords, `_function_call_parser.py:37-41`. -/
def kwLoop (N : Num κ) : List (Option String × Expr κ) → Dict String (Val κ) → Except Exc (Dict String (Val κ))
  | [], d => .ok d
  | (none, _) :: _, _ => .error .valueError
  | (some k, e) :: rest, d =>
    match conv N e with
    | .error x => .error x
    | .ok v => kwLoop N rest (d.set k v)

/-- `tool_name`, `_function_call_parser.py:20-27`. -/
def toolName : Func → Option String
  | .name s => some s
  | .attr s => some s
  | .other => none

/-- `parse_function_call`, `_function_call_parser.py:10-47`: `SyntaxError` and `ValueError` become `ValueError`, other exceptions pass. -/
def parse (N : Num κ) : Body κ → Except Exc (String × Dict String (Val κ))
  | .syntaxError => .error .valueError
  | .notCall => .error .valueError
  | .call f args kws =>
    match toolName f with
    | none => .error .valueError
    | some tool =>
      match posLoop N 0 args [] with
      | .error x => .error x
      | .ok d =>
        match kwLoop N kws d with
        | .error x => .error x
        | .ok d' => .ok (tool, d')

end Verif.CallParse
