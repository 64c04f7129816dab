import Verif.Py.Basic

/-!
# Model of `src/lionherd_core/ln/_to_list.py` and `src/lionherd_core/ln/_list_call.py`

Python values as far as these functions distinguish them.  Hashing, equality and `hash_dict` are parameters.
-/

namespace Verif.ToList

/-- Iterables that may be flattened: tuples, sets and frozensets only on request. Serves `skips` (`_to_list.py:134`). -/
inductive Kind where
  | list        -- list
  | iter        -- generator, range, deque, dict view, ...
  | tupleSet    -- tuple, set, frozenset
  deriving DecidableEq, Repr

/-- Python values.  The items of an iterable are chained by `cons`. Serves `process` (`_to_list.py:69-96`). -/
inductive Val (α : Type) where
  | atom (a : α)                        -- not iterable, or of a type never flattened (strings, bytes, mappings, models, enums)
  | na                                  -- None, Undefined, Unset, PydanticUndefined
  | seq (k : Kind) (items : Val α)
  | nil
  | cons (h t : Val α)
  deriving DecidableEq, Repr

variable {α : Type}

/-- A chain of items. Serves `process` (`_to_list.py:69-96`). -/
def ofList : List (Val α) → Val α
  | [] => .nil
  | v :: vs => .cons v (ofList vs)

/-- `isinstance(item, skip_types)` for an iterable, `_to_list.py:134`. -/
def skips (fts : Bool) (k : Kind) : Bool := decide (k = .tupleSet) && !fts

/-- `_process_list`, `_to_list.py:69-96`, on a chain of items.  Without `flatten` an inner iterable is replaced by the list of its processed items. -/
def process (flatten dropna fts : Bool) : Val α → List (Val α)
  | .cons .na t => if dropna then process flatten dropna fts t else .na :: process flatten dropna fts t
  | .cons (.seq k l) t =>
    if skips fts k then .seq k l :: process flatten dropna fts t
    else if flatten then process flatten dropna fts l ++ process flatten dropna fts t
    else .seq .list (ofList (process flatten dropna fts l)) :: process flatten dropna fts t
  | .cons h t => h :: process flatten dropna fts t
  | _ => []

/-- Inputs of `to_list`. Serves `initial` (`_to_list.py:98-126`). -/
inductive Input (α : Type) where
  | na
  | seq (k : Kind) (items : Val α)                       -- list or other iterable
  | enumClass (members values : List (Val α))
  | text (whole : Val α) (chars : List (Val α))          -- str, bytes, bytearray
  | mapping (whole : Val α) (values : List (Val α))
  | model (whole : Val α) (pairs : List (Val α))         -- pydantic model; iterating it gives (field, value) tuples
  | single (v : Val α)                                   -- not iterable

/-- `_to_list_type`, `_to_list.py:98-126`. -/
def initial (useValues : Bool) : Input α → Val α
  | .na => .nil
  | .seq _ l => l
  | .enumClass ms vs => ofList (if useValues then vs else ms)
  | .text w cs => if useValues then ofList cs else .cons w .nil
  | .mapping w vs => if useValues then ofList vs else .cons w .nil
  | .model w _ => .cons w .nil
  | .single v => .cons v .nil

/-- Hashing.  `hash` is `none` for unhashable values; `hashMap` is `hash_dict` on mappings and models, `none` for other values.
Serves `uniqueDirect` (`_to_list.py:141-146`). -/
structure Hashing (α : Type) where
  eq : Val α → Val α → Bool
  hash : Val α → Option Int
  hashMap : Val α → Option Int

/-- `i not in seen` on a set of hashable values. Serves `uniqueDirect` (`_to_list.py:141-146`). -/
def inSeen (H : Hashing α) (seen : List (Val α)) (v : Val α) : Bool := seen.any (fun s => H.eq s v)

/-- The first loop, `_to_list.py:141-146`; `none`: an unhashable item was met.  `out` and `seen` have the same elements.
Not modelled: a plain `set` equal to a frozenset already seen is recognised by `in` and does not trigger the restart. -/
def uniqueDirect (H : Hashing α) : List (Val α) → List (Val α) → Option (List (Val α))
  | out, [] => some out
  | out, v :: vs =>
    match H.hash v with
    | none => none
    | some _ => if inSeen H out v then uniqueDirect H out vs else uniqueDirect H (out ++ [v]) vs

/-- The key used after the switch to hashes, `_to_list.py:155-163`; `none`: ValueError. -/
def fallbackKey (H : Hashing α) (v : Val α) : Option Int :=
  match H.hash v with
  | some h => some h
  | none => H.hashMap v

/-- The second loop, `_to_list.py:154-166`. -/
def uniqueHash (H : Hashing α) : List Int → List (Val α) → List (Val α) → Except Exc (List (Val α))
  | _, out, [] => .ok out
  | seen, out, v :: vs =>
    match fallbackKey H v with
    | none => .error .valueError
    | some h => if h ∈ seen then uniqueHash H seen out vs else uniqueHash H (seen ++ [h]) (out ++ [v]) vs

/-- Removal of duplicates, `_to_list.py:137-168`. -/
def unique (H : Hashing α) (l : List (Val α)) : Except Exc (List (Val α)) :=
  match uniqueDirect H [] l with
  | some out => .ok out
  | none => uniqueHash H [] [] l

/-- Options of `to_list`. Serves `toList` (`_to_list.py:28-170`). -/
structure Opts where
  flatten : Bool := false
  dropna : Bool := false
  unique : Bool := false
  useValues : Bool := false
  fts : Bool := false
  deriving DecidableEq, Repr

/-- `to_list`, `_to_list.py:28-170`. -/
def toList (H : Hashing α) (o : Opts) (x : Input α) : Except Exc (List (Val α)) :=
  if o.unique && !o.flatten then .error .valueError
  else if o.unique then unique H (process o.flatten o.dropna o.fts (initial o.useValues x))
  else .ok (process o.flatten o.dropna o.fts (initial o.useValues x))

/-! ### `lcall` -/

/-- What a call of the function does. Serves `callLoop` (`_list_call.py:87-95`). -/
inductive Call (α : Type) where
  | returns (v : Val α)
  | interrupted            -- InterruptedError
  | raises (e : Exc)

/-- The loop over the items, `_list_call.py:87-95`: results, and whether it was interrupted. -/
def callLoop (f : Val α → Call α) : List (Val α) → List (Val α) → Except Exc (List (Val α) × Bool)
  | out, [] => .ok (out, false)
  | out, v :: vs =>
    match f v with
    | .returns r => callLoop f (out ++ [r]) vs
    | .interrupted => .ok (out, true)
    | .raises e => .error e

/-- The items of a chain. Serves `plainList` (`_list_call.py:77-82`). -/
def items : Val α → List (Val α)
  | .cons h t => h :: items t
  | _ => []

/-- `list(input_)`, or `[input_]` if it is not iterable, `_list_call.py:77-82`.  Strings, mappings and models are iterable; the mapping gives its keys, here `keys`. -/
def plainList (keys : List (Val α)) : Input α → List (Val α)
  | .na => [.na]
  | .seq _ l => items l
  | .enumClass ms _ => ms
  | .text _ cs => cs
  | .mapping _ _ => keys
  | .model _ ps => ps
  | .single v => [v]

/-- The input elements, `_list_call.py:66-82`. -/
def lcallInput (H : Hashing α) (inp : Opts) (keys : List (Val α)) (x : Input α) : Except Exc (List (Val α)) :=
  if inp.flatten || inp.dropna then toList H inp x else .ok (plainList keys x)

/-- Output processing, `_list_call.py:97-105`. -/
def lcallOutput (H : Hashing α) (out : Opts) (l : List (Val α)) : Except Exc (List (Val α)) :=
  if out.flatten || out.dropna then toList H { out with useValues := false } (.seq .list (ofList l)) else .ok l

/-- The part after input processing. Serves `lcall` (`_list_call.py:16-107`). -/
def lcallRun (H : Hashing α) (out : Opts) (f : Val α → Call α) (l : List (Val α)) : Except Exc (List (Val α)) :=
  match callLoop f [] l with
  | .error e => .error e
  | .ok (r, true) => .ok r
  | .ok (r, false) => lcallOutput H out r

/-- `lcall`, `_list_call.py:16-107`, for a callable `func`. -/
def lcall (H : Hashing α) (inp out : Opts) (keys : List (Val α)) (f : Val α → Call α) (x : Input α) : Except Exc (List (Val α)) :=
  if out.unique && !(out.flatten || out.dropna) then .error .valueError
  else
    match lcallInput H inp keys x with
    | .error e => .error e
    | .ok l => lcallRun H out f l

end Verif.ToList
