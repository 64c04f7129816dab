import Verif.Model.Event

/-!
# Model of how an event is written and read

`Execution.to_dict` (`src/lionherd_core/base/event.py:66-101`), `get_json_serializable` (`base/_utils.py:256-286`), the serializer of the
field `execution` (`event.py:213-216`), `Element.to_dict` in the modes python and json for that entry (`element.py:118-127`) and the
validation of the entry by `from_dict`.

Python values are trees. Simplified: no cyclic values, no nesting limits of orjson; exceptions are trees (shared and cyclic groups are the
subject of `Verif.Event`).
-/

namespace Verif.EventSerial

open Verif.Event (Status)

/-- Texts as lists of code points. Serves `lionEntry` (`errors.py:59-70`). -/
abbrev Text := List Nat

/-- A dictionary key: a text or another object. Serves `encodable` (`ln/_json_dump.py:137-164`). -/
inductive Key where
  | text (t : Text)
  | other (n : Nat)
  deriving DecidableEq, Repr

/-- Python values, by what the JSON encoder does with them. Serves `encodable` (`ln/_json_dump.py:137-164`). -/
inductive V where
  | null
  | bool (b : Bool)
  | int (n : Int)
  | float (q : Rat)
  | nonFinite                      -- nan and the infinities
  | str (t : Text)
  | bytes (bs : List Nat)          -- bytes and bytearray
  | enum (v : V)                   -- a member of an enumeration with this value
  | native (t : Text)              -- datetime, date, time, UUID: orjson writes this text
  | viaStr (t : Text)              -- Path, Decimal: the default function gives this text
  | set (xs : List V)              -- set, frozenset: the default function gives a list
  | list (xs : List V)
  | dict (kvs : List (Key × V))
  | model (dump : V)               -- an object whose `model_dump()` gives this value
  | opaque (n : Nat)               -- anything else: not serialisable

/-! ### The JSON encoder -/

/-- orjson refuses surrogates. Serves `encodable` (`ln/_json_dump.py:137-164`). -/
def textOk (t : Text) : Bool := t.all (fun c => !(decide (0xD800 ≤ c) && decide (c ≤ 0xDFFF)))

/-- orjson refuses integers beyond 64 bits. Serves `encodable` (`ln/_json_dump.py:137-164`). -/
def intOk (n : Int) : Bool := decide (-(2 ^ 63) ≤ n) && decide (n < 2 ^ 64)

/-- Without `OPT_NON_STR_KEYS` keys have to be texts. Serves `encodable` (`ln/_json_dump.py:137-164`). -/
def keyOk : Key → Bool
  | .text t => textOk t
  | .other _ => false

/-- `orjson.dumps(v, default=...)` succeeds, with the default function of `json_dumpb` (`ln/_json_dump.py:137-164`), and likewise with the one
of `Element.to_json` (`base/_utils.py:289-306`): they differ in objects that `to_dict` in python mode has replaced by dictionaries. -/
def encodable : V → Bool
  | .null => true
  | .bool _ => true
  | .int n => intOk n
  | .float _ => true
  | .nonFinite => true
  | .str t => textOk t
  | .bytes _ => false
  | .enum v => encodable v
  | .native _ => true
  | .viaStr t => textOk t
  | .set xs => allEnc xs
  | .list xs => allEnc xs
  | .dict kvs => allEncKV kvs
  | .model d => encodable d
  | .opaque _ => false
where
  allEnc : List V → Bool
    | [] => true
    | x :: xs => encodable x && allEnc xs
  allEncKV : List (Key × V) → Bool
    | [] => true
    | (k, x) :: xs => keyOk k && encodable x && allEncKV xs

/-- The value after `orjson.loads(orjson.dumps(v))`, for an encodable `v`. Serves the model of `event.py:213-216`. -/
def viaJson : V → V
  | .null => .null
  | .bool b => .bool b
  | .int n => .int n
  | .float q => .float q
  | .nonFinite => .null
  | .str t => .str t
  | .bytes bs => .bytes bs
  | .enum v => viaJson v
  | .native t => .str t
  | .viaStr t => .str t
  | .set xs => .list (viaList xs)
  | .list xs => .list (viaList xs)
  | .dict kvs => .dict (viaKV kvs)
  | .model d => viaJson d
  | .opaque n => .opaque n
where
  viaList : List V → List V
    | [] => []
    | x :: xs => viaJson x :: viaList xs
  viaKV : List (Key × V) → List (Key × V)
    | [] => []
    | (k, x) :: xs => (k, viaJson x) :: viaKV xs

/-- What `model_dump()` makes of a value inside the dictionary that the field serializer returns: models are dumped, the rest stays.
Serves the model of `event.py:213-216`. -/
def pyDump : V → V
  | .set xs => .set (dumpList xs)
  | .list xs => .list (dumpList xs)
  | .dict kvs => .dict (dumpKV kvs)
  | .model d => pyDump d
  | v => v
where
  dumpList : List V → List V
    | [] => []
    | x :: xs => pyDump x :: dumpList xs
  dumpKV : List (Key × V) → List (Key × V)
    | [] => []
    | (k, x) :: xs => (k, pyDump x) :: dumpKV xs

/-! ### `get_json_serializable` -/

/-- `isinstance(data, _SIMPLE_TYPE)`, `_utils.py:256, 267`: returned without a check. -/
def simple : V → Bool
  | .null => true
  | .bool _ => true
  | .int _ => true
  | .float _ => true
  | .nonFinite => true
  | .str _ => true
  | .bytes _ => true
  | .enum _ => true
  | _ => false

/-- The second attempt, `_utils.py:275-284`: `force` is `to_dict(data, recursive=True, ...)`, `none` when it raises. -/
def forced (force : V → Option V) (v : V) : Option V :=
  match force v with
  | some d => if encodable d then some d else none
  | none => none

/-- `get_json_serializable(data)`, `_utils.py:259-286`, for data other than `Unset`; `none` is `Unset`. -/
def jsonSerializable (force : V → Option V) (v : V) : Option V :=
  if simple v then some v
  else if encodable v then some v
  else forced force v

/-! ### `Execution.to_dict` -/

/-- Exceptions: of the package, groups, and others. Serves `errDict` (`event.py:78-91`). -/
inductive Err where
  | plain (cls message : Text)
  | lion (cls message : Text) (retryable : Bool) (details : Option (List (Key × V)))
  | group (cls message : Text) (members : List Err)

/-- An ASCII text. Serves `detailsEntry` (`errors.py:65-70`). -/
def lit (s : String) : Text := s.toList.map Char.toNat

/-- `{"error": ..., "message": ...}` with more entries. Serves `lionEntry` (`errors.py:59-70`). -/
def errEntry (cls message : Text) (more : List (Key × V)) : V :=
  .dict ((.text (lit "error"), .str cls) :: (.text (lit "message"), .str message) :: more)

/-- The entry "details" of `LionherdError.to_dict`, `errors.py:65-70` (empty details are left out). -/
def detailsEntry : Option (List (Key × V)) → List (Key × V)
  | none => []
  | some [] => []
  | some (kv :: kvs) => [(.text (lit "details"), .dict (kv :: kvs))]

/-- `LionherdError.to_dict`, `errors.py:59-70`. -/
def lionEntry (cls message : Text) (retryable : Bool) (details : Option (List (Key × V))) : V :=
  errEntry cls message ((.text (lit "retryable"), .bool retryable) :: detailsEntry details)

/-- Beyond the depth limit, `event.py:119-124`. -/
def deepEntry (n : Nat) : V :=
  errEntry (lit "ExceptionGroup") (lit "Max nesting depth (100) exceeded") [(.text (lit "nested_count"), .int n)]

/-- An exception, `event.py:78-91` and `140-158`; the first argument is `MAX_DEPTH - depth + 1`. -/
def errDict : Nat → Err → V
  | _, .plain cls message => errEntry cls message []
  | _, .lion cls message r d => lionEntry cls message r d
  | 0, .group _ _ ms => deepEntry ms.length
  | k + 1, .group cls message ms => errEntry cls message [(.text (lit "exceptions"), .list (members k ms))]
where
  members : Nat → List Err → List V
    | _, [] => []
    | k, m :: ms => errDict k m :: members k ms

/-- Exceptions as Python has them: `baseGroup` is a `BaseExceptionGroup` that is no `ExceptionGroup` (it holds a `KeyboardInterrupt`, a cancellation, ...).
Serves `Exn.seen` (`event.py:81-91`). -/
inductive Exn where
  | plain (cls message : Text)
  | lion (cls message : Text) (retryable : Bool) (details : Option (List (Key × V)))
  | group (cls message : Text) (members : List Exn)
  | baseGroup (cls message : Text) (members : List Exn)

/-- The branches of `event.py:81-91` and `140-152`: `isinstance(exc, ExceptionGroup)` is false for a `BaseExceptionGroup`, which is then treated as any other exception. -/
def Exn.seen : Exn → Err
  | .plain c m => .plain c m
  | .lion c m r d => .lion c m r d
  | .group c m ms => .group c m (seenAll ms)
  | .baseGroup c m _ => .plain c m
where
  seenAll : List Exn → List Err
    | [] => []
    | e :: es => e.seen :: seenAll es

/-- `execution.response`: a sentinel or a value. Serves `Execution` (`event.py:48-65`). -/
inductive Response where
  | sentinel
  | value (v : V)

/-- `execution.error`: `Unset`, `None` or an exception. Serves `Execution` (`event.py:48-65`). -/
inductive Error where
  | unset
  | none_
  | exc (e : Err)

/-- `Execution`, `event.py:48-65`; `none` is `Unset`. The status of an execution read by pydantic is a text, since the configuration of
`Element` (`element.py:43`, `use_enum_values`) applies to it. -/
structure Execution where
  status : Status
  statusIsText : Bool
  duration : Option Rat
  response : Response
  error : Error
  retryable : Option Bool

/-- The dictionary. Serves `execToDict` (`event.py:66-101`). -/
structure ExecDict where
  status : Status
  duration : V
  response : V
  error : V
  retryable : V

/-- The entry "response", `event.py:70-75`. -/
def responseEntry (force : V → Option V) : Response → V
  | .sentinel => .null
  | .value v => (jsonSerializable force v).getD (.str (lit "<unserializable>"))

/-- The entry "error", `event.py:77-91`. -/
def errorEntry : Error → V
  | .unset => .null
  | .none_ => .null
  | .exc e => errDict 101 e

/-- `None` for `Unset`. Serves `execToDict` (`event.py:66-101`). -/
def orNull {α : Type} (f : α → V) : Option α → V
  | none => .null
  | some x => f x

/-- `Execution.to_dict`, `event.py:66-101`; a text has no attribute `value`. -/
def execToDict (force : V → Option V) (x : Execution) : Except Exc ExecDict :=
  if x.statusIsText then .error .attributeError
  else .ok ⟨x.status, orNull .float x.duration, responseEntry force x.response, errorEntry x.error, orNull .bool x.retryable⟩

/-- Serves `eventToDict` (`event.py:213-216`). -/
inductive Mode where
  | python
  | json
  deriving DecidableEq

/-- Mode python for the entry: `model_dump()`. Serves `eventToDict` (`event.py:213-216`). -/
def dumpDict (d : ExecDict) : ExecDict := ⟨d.status, pyDump d.duration, pyDump d.response, pyDump d.error, pyDump d.retryable⟩

/-- Every value can be written. Serves `eventToDict` (`event.py:213-216`). -/
def dictEncodable (d : ExecDict) : Bool := encodable d.duration && encodable d.response && encodable d.error && encodable d.retryable

/-- Written and read. Serves `eventToDict` (`event.py:213-216`). -/
def dictViaJson (d : ExecDict) : ExecDict := ⟨d.status, viaJson d.duration, viaJson d.response, viaJson d.error, viaJson d.retryable⟩

/-- `event.to_dict(mode)["execution"]`, `event.py:213-216`, `element.py:118-127`: orjson raises a `TypeError` for what it cannot write. -/
def eventToDict (force : V → Option V) (x : Execution) : Mode → Except Exc ExecDict
  | .python =>
    match execToDict force x with
    | .ok d => .ok (dumpDict d)
    | .error e => .error e
  | .json =>
    match execToDict force x with
    | .ok d => if dictEncodable (dumpDict d) then .ok (dictViaJson (dumpDict d)) else .error .typeError
    | .error e => .error e

/-! ### Reading -/

/-- `duration: float | UnsetType`. Serves `readExecution` (`element.py:166-216`). -/
def readDuration : V → Option Rat
  | .float q => some q
  | .int n => some n
  | .bool b => some (if b then 1 else 0)
  | _ => none

/-- `retryable: bool | UnsetType` (the texts and numbers that pydantic takes for booleans are not modelled).
Serves `readExecution` (`element.py:166-216`). -/
def readRetryable : V → Option Bool
  | .bool b => some b
  | _ => none

/-- `error: BaseException | UnsetType | None`. Serves `readExecution` (`element.py:166-216`). -/
def readError : V → Option Error
  | .null => some .none_
  | _ => none

/-- The entry "execution" read by `Event.from_dict` (`element.py:166-216`), for entries written by `to_dict`: pydantic validates it against the
annotations of `Execution` (`event.py:60-64`). -/
def readExecution (d : ExecDict) : Except Exc Execution :=
  match readDuration d.duration, readError d.error, readRetryable d.retryable with
  | some t, some e, some r => .ok ⟨d.status, true, some t, .value d.response, e, some r⟩
  | _, _, _ => .error .validation

end Verif.EventSerial
