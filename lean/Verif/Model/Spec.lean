import Verif.Py.Dict
import Verif.Py.Basic

/-!
# Model of `Spec` and `CommonMeta` (`src/lionherd_core/types/spec.py`)
-/

namespace Verif.Spec

/-- Metadata keys: the common ones (`spec.py:33-38`) and any other. -/
inductive Key where
  | name | nullable | listable | validator | default | factory
  | other (s : String)
  deriving DecidableEq, Repr

/-- What the code asks of metadata values. Serves `metasOk` (`spec.py:40-54`). -/
structure Values (ν : Type) where
  truthy : ν → Bool
  callable : ν → Bool
  isTrue : ν → Bool            -- `v is True`
  undefined : ν → Bool         -- `v is Undefined`
  unset : ν → Bool             -- `v is Unset`
  validName : ν → Bool         -- a non-empty string
  validators : ν → Bool        -- a callable or a list of callables
  async : ν → Bool             -- `is_coro_func`

variable {ν τ : Type}

/-- `is_sentinel`. Serves `updated` (`spec.py:215-219`). -/
def Values.sentinel (V : Values ν) (v : ν) : Bool := V.undefined v || V.unset v

/-- Metadata: pairs of key and value (`Meta`). Serves `get` (`spec.py:148-159`). -/
abbrev Metas (ν : Type) := List (Key × ν)

/-- `__getitem__`/`get` on a metadata tuple, `spec.py:148-159`: the first entry with the key. -/
def get (ms : Metas ν) (k : Key) : Option ν := Dict.get? ms k

/-- A look-up that counts only when truthy. Serves `metasOk` (`spec.py:40-54`). -/
def truthyAt (V : Values ν) (ms : Metas ν) (k : Key) : Option ν :=
  match get ms k with
  | some v => if V.truthy v then some v else none
  | none => none

/-- `_validate_common_metas`, `spec.py:40-54`: no error is collected. -/
def metasOk (V : Values ν) (ms : Metas ν) : Bool :=
  !((truthyAt V ms .default).isSome && (truthyAt V ms .factory).isSome)
    && (truthyAt V ms .factory).all V.callable
    && (truthyAt V ms .validator).all V.validators

/-- The duplicate check over metadata, positional and keyword entries, `spec.py:64-89`. -/
def noDup : List Key → Metas ν → Bool
  | _, [] => true
  | seen, m :: ms => if m.1 ∈ seen then false else noDup (seen ++ [m.1]) ms

/-- `prepare`, `spec.py:56-95`.  `args` is the flattened list of positional `Meta` objects.  Duplicates: ValueError; a failed validation: ExceptionGroup (`validation`).  Not modelled: a positional argument that is no `Meta` (AttributeError), and a key `cls`, which collides with the first parameter of the class method (TypeError). -/
def prepare (V : Values ν) (metadata args kw : Metas ν) : Except Exc (Metas ν) :=
  if noDup [] (metadata ++ args ++ kw) then
    if metasOk V (metadata ++ args ++ kw) then .ok (metadata ++ args ++ kw) else .error .validation
  else .error .valueError

/-- A spec. Serves `mk` (`spec.py:106-146`). -/
structure Spec (ν τ : Type) where
  base : Option τ
  metas : Metas ν
  deriving DecidableEq, Repr

/-- The name check, `spec.py:118-122`. -/
def nameOk (V : Values ν) (ms : Metas ν) : Bool := (get ms .name).all V.validName

/-- `__init__`, `spec.py:106-146`; `validType` is the test of `spec.py:124-133`.  The warning about async factories is not modelled. -/
def mk (V : Values ν) (validType : τ → Bool) (base : Option τ) (metadata args kw : Metas ν) : Except Exc (Spec ν τ) :=
  match prepare V metadata args kw with
  | .error e => .error e
  | .ok ms =>
    if nameOk V ms then
      if base.all validType then .ok { base := base, metas := ms } else .error .valueError
    else .error .valueError

/-- The entries that `with_updates` passes on, `spec.py:215-219`; `kw` has each key once. -/
def updated (V : Values ν) (ms kw : Metas ν) : Metas ν :=
  ms.filter (fun m => !decide (m.1 ∈ kw.map Prod.fst)) ++ kw.filter (fun m => !V.sentinel m.2)

/-- `with_updates`, `spec.py:213-220`. -/
def withUpdates (V : Values ν) (validType : τ → Bool) (s : Spec ν τ) (kw : Metas ν) : Except Exc (Spec ν τ) :=
  mk V validType s.base (updated V s.metas kw) [] []

/-- `as_nullable`, `spec.py:222-224`; `yes` is `True`. -/
def asNullable (V : Values ν) (validType : τ → Bool) (yes : ν) (s : Spec ν τ) : Except Exc (Spec ν τ) := withUpdates V validType s [(.nullable, yes)]
/-- `as_listable`, `spec.py:226-228`. -/
def asListable (V : Values ν) (validType : τ → Bool) (yes : ν) (s : Spec ν τ) : Except Exc (Spec ν τ) := withUpdates V validType s [(.listable, yes)]
/-- `with_validator`, `spec.py:236-238`. -/
def withValidator (V : Values ν) (validType : τ → Bool) (s : Spec ν τ) (v : ν) : Except Exc (Spec ν τ) := withUpdates V validType s [(.validator, v)]

/-- `with_default`, `spec.py:230-234`. -/
def withDefault (V : Values ν) (validType : τ → Bool) (s : Spec ν τ) (v : ν) : Except Exc (Spec ν τ) :=
  if V.callable v then withUpdates V validType s [(.factory, v)] else withUpdates V validType s [(.default, v)]

/-- `default`, `spec.py:176-182`: the default, or else the factory. -/
def default (s : Spec ν τ) : Option ν :=
  match get s.metas .default with
  | some v => some v
  | none => get s.metas .factory

/-- What `create_default_value` does. Serves `createDefault` (`spec.py:194-205`). -/
inductive Created (ν : Type) where
  | value (v : ν)       -- returned
  | called (f : ν)      -- `f()`
  deriving DecidableEq, Repr

/-- `has_default_factory` and `has_async_default_factory`, `spec.py:184-192`. -/
def hasFactory (V : Values ν) (s : Spec ν τ) : Bool := (get s.metas .factory).any V.callable

/-- Serves `createDefault` (`spec.py:194-205`). -/
def hasAsync (V : Values ν) (s : Spec ν τ) : Bool := (get s.metas .factory).any (fun f => V.callable f && V.async f)

/-- Calling a value: TypeError unless it is callable. Serves `createDefault` (`spec.py:194-205`). -/
def call (V : Values ν) (f : ν) : Except Exc (Created ν) := if V.callable f then .ok (.called f) else .error .typeError

/-- `create_default_value`, `spec.py:194-205`. -/
def createDefault (V : Values ν) (s : Spec ν τ) : Except Exc (Created ν) :=
  match default s with
  | none => .error .valueError
  | some d =>
    if V.undefined d then .error .valueError
    else if hasAsync V s then .error .valueError
    else if hasFactory V s then call V d
    else .ok (.value d)

/-- `await acreate_default_value()`, `spec.py:207-211`; that what `self.default()` returns can be awaited is not modelled, nor is `Undefined()` when a stored default is `Undefined`. -/
def createDefaultAsync (V : Values ν) (s : Spec ν τ) : Except Exc (Created ν) :=
  if hasAsync V s then
    match default s with
    | none => .error .typeError
    | some d => call V d
  else createDefault V s

/-- The common keys, `CommonMeta.allowed()`, `spec.py:33-38`. -/
def common : List Key := [.name, .nullable, .listable, .validator, .default, .factory]

/-- `metadict`, `spec.py:296-304`. -/
def metadict (s : Spec ν τ) (exclude : List Key) (excludeCommon : Bool) : Metas ν :=
  s.metas.filter (fun m => !decide (m.1 ∈ exclude ++ (if excludeCommon then common else [])))

/-! ### Type annotations -/

/-- Types as far as built here. Serves `annotation` (`spec.py:240-250`). -/
inductive Ty (τ : Type) where
  | any
  | base (t : τ)
  | list (t : Ty τ)
  | optional (t : Ty τ)
  deriving DecidableEq, Repr

/-- The base type, `Any` if absent. Serves `fresh` (`spec.py:264-285`). -/
def baseTy (s : Spec ν τ) : Ty τ :=
  match s.base with
  | some t => .base t
  | none => .any

/-- `is_nullable`/`is_listable`, `spec.py:166-174`. -/
def flag (V : Values ν) (s : Spec ν τ) (k : Key) : Bool := (get s.metas k).any V.isTrue

/-- Applying a modifier. Serves `annotation` (`spec.py:240-250`). -/
def applyIf (b : Bool) (f : Ty τ → Ty τ) (t : Ty τ) : Ty τ := if b then f t else t

/-- `annotation`, `spec.py:240-250`. -/
def annotation (V : Values ν) (s : Spec ν τ) : Ty τ :=
  match s.base with
  | none => .any
  | some t => applyIf (flag V s .nullable) .optional (applyIf (flag V s .listable) .list (.base t))

/-- The annotated type computed afresh, `spec.py:264-285`: the type and the metadata attached. -/
def fresh (V : Values ν) (s : Spec ν τ) : Ty τ × Metas ν :=
  (applyIf (s.metas.any (fun m => decide (m.1 = .nullable) && V.truthy m.2)) .optional (baseTy s), s.metas)

/-- The cache of annotated types, oldest first: cache keys with results. Serves `evict` (`spec.py:290-292`). -/
abbrev Cache (ν τ : Type) := List (Spec ν τ × (Ty τ × Metas ν))

/-- Dropping the oldest entries above the limit, `spec.py:290-292`. -/
def evict (maxSize : Nat) (c : Cache ν τ) : Cache ν τ := c.drop (c.length - maxSize)

/-- `annotated`, `spec.py:252-294`.  `keq` is `==` on cache keys `(base_type, metadata)`. -/
def annotated (V : Values ν) (keq : Spec ν τ → Spec ν τ → Bool) (maxSize : Nat) (c : Cache ν τ) (s : Spec ν τ) : (Ty τ × Metas ν) × Cache ν τ :=
  match c.find? (fun e => keq e.1 s) with
  | some e => (e.2, c.eraseP (fun e => keq e.1 s) ++ [e])
  | none => (fresh V s, evict maxSize (c ++ [(s, fresh V s)]))

end Verif.Spec
