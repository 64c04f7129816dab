import Verif.Model.Params

/-!
# Parameter objects in use (`src/lionherd_core/types/base.py`, `ln/_async_call.py:269-314`, `ln/_to_list.py:171-190`, `ln/_fuzzy_match.py:150-166`)

Calling a parameter object, the effect of the `@dataclass` decorator on defaults and hashing, and
`DataClass.with_updates`. Field and argument names are strings.
-/

namespace Verif.ParamCall

open Verif.Params

variable {ν : Type}

/-! ### `default_kw` and `__call__` -/

/-- `kw_.update(dict_.pop(name, {}))`, `base.py:123-124`: the entries to add; `none` if the value is no mapping. -/
def entriesOf (asDict : ν → Option (Dict String ν)) (d : Dict String ν) (name : String) : Option (Dict String ν) :=
  match d.get? name with
  | none => some []
  | some v => asDict v

/-- `default_kw`, `base.py:117-126`; a `kw` value that is no mapping raises `TypeError`. -/
def defaultKw (cfg : Cfg ν) (asDict : ν → Option (Dict String ν)) (keys : List String) (a : Attrs String ν) : Except Exc (Dict String ν) :=
  match entriesOf asDict (toDict cfg keys a) "kwargs", entriesOf asDict (toDict cfg keys a) "kw" with
  | some e1, some e2 => .ok ((((toDict cfg keys a).del "kwargs").del "kw").update (Dict.update (Dict.update [] e1) e2))
  | _, _ => .error .typeError

/-- The keyword parameters of a function with their defaults, and whether it takes `**kwargs`. Serves `callObj` (`_to_list.py:187-190`). -/
structure Sig (ν : Type) where
  defaults : Dict String ν
  varkw : Bool

/-- Binding keyword arguments: the arguments the function sees. Serves `callObj` (`_to_list.py:187-190`). -/
def bind (sig : Sig ν) (kw : Dict String ν) : Except Exc (Dict String ν) :=
  if sig.varkw || kw.keys.all (fun k => decide (k ∈ sig.defaults.keys)) then .ok (sig.defaults.update kw) else .error .typeError

/-- `{**self.default_kw(), **kw}` and the call: `ToListParams.__call__` (`_to_list.py:187-190`), `AlcallParams.__call__` (`_async_call.py:301-303`), `FuzzyMatchKeysParams.__call__` (`_fuzzy_match.py:165-166`, with no `kw`). -/
def callObj (cfg : Cfg ν) (asDict : ν → Option (Dict String ν)) (sig : Sig ν) (keys : List String) (a : Attrs String ν) (kw : Dict String ν) : Except Exc (Dict String ν) :=
  match defaultKw cfg asDict keys a with
  | .error e => .error e
  | .ok d => bind sig (d.update kw)

/-- `bcall(input_, func, self.batch_size, **kwargs)`, `_async_call.py:314`: `batch_size` is given by position; a keyword of that name is a second value. -/
def bcallCall (kw : Dict String ν) : Except Exc Unit :=
  if "batch_size" ∈ kw.keys then .error .typeError else .ok ()

/-- `BcallParams.__call__`, `_async_call.py:312-314`: `bcall` is an async generator function, its result cannot be awaited. The third component would be the batches. -/
def callBcall (cfg : Cfg ν) (asDict : ν → Option (Dict String ν)) (keys : List String) (a : Attrs String ν) (kw : Dict String ν) : Except Exc (List ν) :=
  match defaultKw cfg asDict keys a with
  | .error e => .error e
  | .ok d =>
    match bcallCall (d.update kw) with
    | .error e => .error e
    | .ok () => .error .typeError

/-! ### What the decorator does with defaults -/

/-- A declared default. Serves the model of `base.py:69-78`. -/
inductive Default (ν : Type) where
  | required
  | plain (v : ν)
  | factory (v : ν)

/-- A `Params` subclass decorated with `@dataclass(init=False, slots=...)`: its fields with their defaults. Serves `construct` (`base.py:69-78`). -/
structure Decl (ν : Type) where
  fields : List (String × Default ν)
  slots : Bool

/-- The class attribute left by the decorator: none for required fields and factories, none at all with `slots=True`.
Serves the model of `base.py:69-78`. -/
def classAttr (slots : Bool) (f : String × Default ν) : Option (String × ν) :=
  match f.2 with
  | .plain v => if slots then none else some (f.1, v)
  | _ => none

/-- The names of the fields. Serves `construct` (`base.py:69-78`). -/
def Decl.names (c : Decl ν) : List String := c.fields.map Prod.fst

/-- The class attributes. Serves `construct` (`base.py:69-78`). -/
def Decl.attrs (c : Decl ν) : Dict String ν := c.fields.filterMap (classAttr c.slots)

/-- `Params.__init__`, `base.py:69-78`, in the subclass: what `getattr` finds on the object afterwards. -/
def construct (cfg : Cfg ν) (c : Decl ν) (kw : Dict String ν) : Except Exc (Attrs String ν) :=
  if kw.keys.all (fun k => decide (k ∈ c.names)) then init cfg c.names (c.attrs.update kw) else .error .valueError

/-! ### What the decorator does with `__hash__` -/

/-- The `__hash__` in force: the content hash of `Params`/`DataClass` (`base.py:138-141, 291-294`), the generated hash of the tuple of all fields, or `None`. -/
inductive HashImpl where
  | content
  | generated
  | unhashable
  deriving DecidableEq

/-- Options of `@dataclass` on a subclass. Part of the model of `ln/_async_call.py:269-314`. -/
structure Deco where
  eq : Bool := true
  frozen : Bool := false
  deriving DecidableEq

/-- The decorator: with `eq=True` it generates `__hash__` if `frozen`, else sets it to `None`; with `eq=False` it is inherited.
Built on `HashImpl` (`base.py:138-141, 291-294`). -/
def decorate (h : HashImpl) (d : Deco) : HashImpl :=
  if d.eq then (if d.frozen then .generated else .unhashable) else h

/-- A chain of subclasses of `Params` or `DataClass`. Built on `HashImpl` (`base.py:138-141, 291-294`). -/
def hashImpl (ds : List Deco) : HashImpl := ds.foldl decorate .content

/-- The generated hash: `hash((self.x, self.y, ...))`. Part of the model of `ln/_async_call.py:269-314`. -/
def generatedHash (vhash : ν → Option Int) (mix : List Int → Int) (names : List String) (a : Attrs String ν) : Except Exc Int :=
  match names.mapM (fun k => a.get? k) with
  | none => .error .attributeError
  | some vs =>
    match vs.mapM vhash with
    | none => .error .typeError
    | some hs => .ok (mix hs)

/-- `hash(obj)`. Built on `HashImpl` (`base.py:138-141, 291-294`). -/
def hashObj (impl : HashImpl) (contentHash : Dict String ν → Int) (vhash : ν → Option Int) (mix : List Int → Int) (cfg : Cfg ν)
    (names : List String) (a : Attrs String ν) : Except Exc Int :=
  match impl with
  | .content => .ok (contentHash (toDict cfg names a))
  | .generated => generatedHash vhash mix names a
  | .unhashable => .error .typeError

/-! ### `DataClass` -/

/-- A field has a default. Serves the model of `base.py:199-220`. -/
def Default.value : Default ν → Option ν
  | .required => none
  | .plain v => some v
  | .factory v => some v

/-- The attribute a field gets in the generated `__init__`. Serves `dcInit` (`base.py:199-220`). -/
def fieldInit (kw : Dict String ν) (f : String × Default ν) : Option (String × ν) :=
  match kw.get? f.1 with
  | some v => some (f.1, v)
  | none => f.2.value.map (fun v => (f.1, v))

/-- The generated `__init__` of a `DataClass` subclass followed by `__post_init__` (`base.py:199-220`); unknown or missing arguments raise `TypeError`. -/
def dcInit (cfg : Cfg ν) (c : Decl ν) (kw : Dict String ν) : Except Exc (Attrs String ν) :=
  if kw.keys.all (fun k => decide (k ∈ c.names)) then
    match c.fields.mapM (fieldInit kw) with
    | none => .error .typeError
    | some a => if cfg.strict && c.names.any (missingAttr cfg a) then .error .validation else .ok (prefill cfg c.names a)
  else .error .typeError

/-- `DataClass.with_updates`, `base.py:250-289` (copies of containers are not distinguished). -/
def dcWithUpdates (cfg : Cfg ν) (c : Decl ν) (a : Attrs String ν) (kw : Dict String ν) : Except Exc (Attrs String ν) :=
  dcInit cfg c ((toDict cfg c.names a).update kw)

end Verif.ParamCall
