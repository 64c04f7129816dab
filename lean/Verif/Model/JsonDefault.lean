import Verif.Py.Basic
import Verif.Py.Dict

/-!
# Model of `get_orjson_default` (`src/lionherd_core/ln/_json_dump.py:83-167`)
-/

namespace Verif.JsonDefault

/-- The types that occur, with the subclass relation; `native` are those of `_NATIVE` (`_json_dump.py:28`); the built-in serializers are those of `_default_serializers` (`_json_dump.py:60-79`). -/
structure Types (τ : Type) where
  sub : τ → τ → Bool
  path : τ
  decimal : τ
  set : τ
  frozenset : τ
  enum : τ
  datetime : τ
  native : List τ

/-- The arguments of `get_orjson_default` that matter for the dispatch. Serves `defaultSerializers` (`_json_dump.py:60-79`). -/
structure Args (τ σ : Type) where
  order : Option (List τ) := none
  additional : Dict τ σ := []
  extendDefault : Bool := true
  enumAsName : Bool := false
  passthroughDatetime : Bool := false
  safeFallback : Bool := false

variable {τ σ : Type} [DecidableEq τ]

/-- `_default_serializers`, `_json_dump.py:60-79`; `builtin t` is the function used for the built-in type `t`. -/
def defaultSerializers (T : Types τ) (builtin : τ → σ) (a : Args τ σ) : Dict τ σ :=
  let base : Dict τ σ := [(T.path, builtin T.path), (T.decimal, builtin T.decimal), (T.set, builtin T.set), (T.frozenset, builtin T.frozenset)]
  let base := if a.enumAsName then base.set T.enum (builtin T.enum) else base
  if a.passthroughDatetime then base.set T.datetime (builtin T.datetime) else base

/-- The table of serializers, `_json_dump.py:107-114`. -/
def table (T : Types τ) (builtin : τ → σ) (a : Args τ σ) : Dict τ σ := (defaultSerializers T builtin a).update a.additional

/-- `base_order`, `_json_dump.py:116-120`. -/
def baseOrder (T : Types τ) (a : Args τ σ) : List τ :=
  (if a.passthroughDatetime then [T.datetime] else []) ++ (if a.enumAsName then [T.enum] else []) ++ [T.path, T.decimal, T.set, T.frozenset]

/-- The order before native types are removed, `_json_dump.py:122-129`; an empty `order` counts as absent. -/
def fullOrder (T : Types τ) (a : Args τ σ) : List τ :=
  match a.order with
  | none => baseOrder T a
  | some [] => baseOrder T a
  | some o => if a.extendDefault then baseOrder T a ++ o.filter (fun t => !(baseOrder T a).contains t) else o

/-- `order_tuple`, `_json_dump.py:131-135`. -/
def orderOf (T : Types τ) (a : Args τ σ) : List τ :=
  if a.passthroughDatetime then fullOrder T a else (fullOrder T a).filter (fun t => !T.native.contains t)

/-- The search of `_json_dump.py:142-148`: the serializer of the first type in the order that is a superclass and has one. -/
def search (T : Types τ) (ser : Dict τ σ) (typ : τ) : List τ → Option σ
  | [] => none
  | t :: ts =>
    if T.sub typ t then
      match ser.get? t with
      | some f => some f
      | none => search T ser typ ts
    else search T ser typ ts

/-- What `default` does with an object: call a serializer, or go on with the duck-typed attempts (`model_dump`, `dict`, the safe fallback or `TypeError`, `_json_dump.py:149-164`). -/
inductive Choice (σ : Type) where
  | serializer (f : σ)
  | fallback
  deriving DecidableEq

/-- `default(obj)` for an object of type `typ` with the cache, `_json_dump.py:139-166`: the choice and the cache afterwards. -/
def default (T : Types τ) (builtin : τ → σ) (a : Args τ σ) (cache : Dict τ σ) (typ : τ) : Choice σ × Dict τ σ :=
  match cache.get? typ with
  | some f => (.serializer f, cache)
  | none =>
    match search T (table T builtin a) typ (orderOf T a) with
    | some f => (.serializer f, cache.set typ f)
    | none => (.fallback, cache)

/-- The cache after serialising objects of the given types. Built on `Types` (`_json_dump.py:28`). -/
def cacheAfter (T : Types τ) (builtin : τ → σ) (a : Args τ σ) (hist : List τ) : Dict τ σ :=
  hist.foldl (fun c t => (default T builtin a c t).2) []

end Verif.JsonDefault
