import Verif.Py.Basic

/-!
# Model of the embedding field and the content serializer of `Node`

`src/lionherd_core/base/node.py:77-147` (field serializer and validator of `embedding`) and `node.py:149-224` (`to_dict`), with the
parts of `element.py:95-158` and `element.py:224-251` through which they are called. The other entries of the output are modelled in
`Verif.Element`, `Verif.Exclude` and `Verif.ToDict`.
-/

namespace Verif.Embedding

/-- A Python float. (Rationals stand for the finite floats; the sign of zero is not modelled.) Serves `toFloat` (`node.py:147`). -/
inductive Flt where
  | fin (q : Rat)
  | inf (negative : Bool)
  | nan
  deriving DecidableEq, Repr

/-- An entry of a list: the three kinds of object for which `isinstance(x, (int, float))` holds, or anything else.
Serves `Scalar.isNumber` (`node.py:145`). -/
inductive Scalar where
  | bool (b : Bool)
  | int (n : Int)
  | float (x : Flt)
  | other
  deriving DecidableEq, Repr

/-- What may be given as, or written for, an embedding. `τ` is the type of texts. Serves `validateList` (`node.py:141-147`). -/
inductive Val (τ : Type) where
  | none
  | text (t : τ)
  | list (xs : List Scalar)
  | other
  deriving DecidableEq, Repr

/-- The library functions used: `float(n)` for an int (`none`: `OverflowError`), `orjson.loads` (`none`: it raises), and the texts
written for a list of floats by `orjson.dumps` and `json.dumps`. Serves `toFloat` (`node.py:147`). -/
structure Lib (τ : Type) where
  ofInt : Int → Option Rat
  loads : τ → Option (Val τ)
  orjsonDumps : List Flt → τ
  jsonDumps : List Flt → τ

variable {τ : Type}

/-! ### Validation -/

/-- `isinstance(x, (int, float))`, `node.py:145` (bool is a subclass of int). -/
def Scalar.isNumber : Scalar → Bool
  | .other => false
  | _ => true

/-- `float(n)` for an int. Serves `toFloat` (`node.py:147`). -/
def ofIntE (L : Lib τ) (n : Int) : Except Exc Flt :=
  match L.ofInt n with
  | some q => .ok (.fin q)
  | none => .error .overflowError

/-- `float(x)` for an entry that passed the check, `node.py:147`. -/
def toFloat (L : Lib τ) : Scalar → Except Exc Flt
  | .bool b => .ok (.fin (if b then 1 else 0))
  | .int n => ofIntE L n
  | .float x => .ok x
  | .other => .error .typeError

/-- Prepending to the result of the remaining entries. Serves `toFloats` (`node.py:147`). -/
def consE {α : Type} (x : α) : Except Exc (List α) → Except Exc (List α)
  | .ok xs => .ok (x :: xs)
  | .error e => .error e

/-- `[float(x) for x in value]`, `node.py:147`. -/
def toFloats (L : Lib τ) : List Scalar → Except Exc (List Flt)
  | [] => .ok []
  | x :: xs =>
    match toFloat L x with
    | .error e => .error e
    | .ok y => consE y (toFloats L xs)

/-- `value is None` was excluded: the checks of `node.py:141-147` on what is left. -/
def validateList (L : Lib τ) : Val τ → Except Exc (Option (List Flt))
  | .list [] => .error .valueError
  | .list xs =>
    if xs.all Scalar.isNumber then
      match toFloats L xs with
      | .ok ys => .ok (some ys)
      | .error e => .error e
    else .error .valueError
  | _ => .error .valueError

/-- `_validate_embedding`, `node.py:125-147`. -/
def validate (L : Lib τ) : Val τ → Except Exc (Option (List Flt))
  | .none => .ok none
  | .text t =>
    match L.loads t with
    | some v => validateList L v
    | none => .error .valueError
  | v => validateList L v

/-- pydantic turns the `ValueError` of a validator into a `ValidationError`; other exceptions propagate. Serves `accept` (`element.py:42`). -/
def pydantic {α : Type} : Except Exc α → Except Exc α
  | .error .valueError => .error .validation
  | r => r

/-- The embedding of a node built by the constructor, by `from_dict` or set by assignment (`validate_assignment`, `element.py:42`): the
field type `list[float] | None` accepts what the validator returns. -/
def accept (L : Lib τ) (v : Val τ) : Except Exc (Option (List Flt)) := pydantic (validate L v)

/-! ### Serialisation -/

/-- Serves `setFormat` (`node.py:175-178`). -/
inductive Mode where
  | python
  | json
  | db
  deriving DecidableEq

/-- Serves `Ctx.format` (`node.py:84-86`). -/
inductive Fmt where
  | pgvector
  | jsonb
  | list
  deriving DecidableEq

/-- The `context` argument of `to_dict`: not given, None, or a dict, of which only the entry "embedding_format" is used.
Serves `Ctx.format` (`node.py:84-86`). -/
inductive Ctx where
  | absent
  | none
  | dict (fmt : Option Fmt)
  deriving DecidableEq

/-- `info.context.get("embedding_format")` or None, `node.py:84-86`. -/
def Ctx.format : Ctx → Option Fmt
  | .dict f => f
  | _ => Option.none

/-- The value returned for a list of floats, `node.py:88-100`. -/
def writeAs (L : Lib τ) (xs : List Flt) : Option Fmt → Val τ
  | some .pgvector => .text (L.orjsonDumps xs)
  | some .jsonb => .text (L.jsonDumps xs)
  | _ => .list (xs.map .float)

/-- `_serialize_embedding`, `node.py:77-100`. -/
def serialize (L : Lib τ) (c : Ctx) : Option (List Flt) → Val τ
  | none => .none
  | some xs => writeAs L xs c.format

/-- The context passed on to `model_dump`, and the caller's context object afterwards, `node.py:175-178`: outside python mode a given
format is written into the caller's dict; None does not support item assignment. -/
def setFormat (m : Mode) (f : Option Fmt) (c : Ctx) : Except Exc Ctx × Ctx :=
  match m, f, c with
  | .python, _, c => (.ok c, c)
  | _, none, c => (.ok c, c)
  | _, some f, .absent => (.ok (.dict (some f)), .absent)
  | _, some _, .none => (.error .typeError, .none)
  | _, some f, .dict _ => (.ok (.dict (some f)), .dict (some f))

/-- An entry of a list of floats after `orjson.dumps` and `orjson.loads`: orjson writes null for infinities and nan.
Serves `viaJson` (`element.py:129-134`). -/
def scalarViaJson : Scalar → Scalar
  | .float (.fin q) => .float (.fin q)
  | .float _ => .other
  | x => x

/-- A value written by the serializer after `orjson.dumps` and `orjson.loads`, `element.py:129-134`; texts survive. -/
def viaJson : Val τ → Val τ
  | .list xs => .list (xs.map scalarViaJson)
  | v => v

/-- The value in the chosen mode, `element.py:126-136`. -/
def inMode : Mode → Val τ → Val τ
  | .python, v => v
  | _, v => viaJson v

/-- `node.to_dict(mode, embedding_format=f, context=c)["embedding"]`, and the caller's context afterwards. Built on `serialize` (`node.py:77-100`). -/
def toDict (L : Lib τ) (m : Mode) (f : Option Fmt) (c : Ctx) (e : Option (List Flt)) : Except Exc (Val τ) × Ctx :=
  match setFormat m f c with
  | (.ok c', after) => (.ok (inMode m (serialize L c' e)), after)
  | (.error x, after) => (.error x, after)

/-! ### The content serializer -/

/-- A callable with effects: the state of the world before and after, and its result or exception. Serves `secondCall` (`node.py:215`). -/
abbrev Callable (σ α β : Type) := σ → α → σ × Except Exc β

/-- What is given as `content_serializer`: nothing, something that is not callable, or a callable. Serves `toDictContent` (`node.py:180-224`). -/
inductive SerArg (σ α β : Type) where
  | absent
  | notCallable
  | fn (f : Callable σ α β)

/-- The second call, `node.py:215`; its exception propagates as it is. `rest` are the other entries, written by `super().to_dict(...)`
(`none`: that raised). -/
def secondCall {σ α β ρ : Type} (f : Callable σ α β) (content : α) (rest : Except Exc ρ) (s : σ) : σ × Except Exc (ρ × β) :=
  match rest with
  | .error e => (s, .error e)
  | .ok r =>
    match f s content with
    | (s', .ok b) => (s', .ok (r, b))
    | (s', .error e) => (s', .error e)

/-- `node.to_dict(content_serializer=a)`, `node.py:180-224`: the other entries of the output and the entry "content". `dump` is the
default serialisation of the content, `rest` the remaining entries (its computation has no effect on `σ`). -/
def toDictContent {σ α β ρ : Type} (dump : α → β) (rest : Except Exc ρ) (content : α) (a : SerArg σ α β) (s : σ) : σ × Except Exc (ρ × β) :=
  match a with
  | .absent =>
    match rest with
    | .ok r => (s, .ok (r, dump content))
    | .error e => (s, .error e)
  | .notCallable => (s, .error .typeError)
  | .fn f =>
    match f s content with
    | (s', .error _) => (s', .error .valueError)
    | (s', .ok _) => secondCall f content rest s'

end Verif.Embedding
