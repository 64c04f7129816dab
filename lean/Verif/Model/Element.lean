import Verif.Py.Basic
import Verif.Py.Dict

/-!
# Model of `Element` and `Node`: identity, creation times, serialisation, class registry

`src/lionherd_core/base/element.py`, `src/lionherd_core/base/node.py` and the helpers of
`src/lionherd_core/base/_utils.py` they use.

Texts that are inspected character by character (class names) are lists of characters; field names and
metadata keys, which are only compared, are strings.
-/

namespace Verif.Element

/-! ### Creation times -/

/-- A `datetime`: wall clock in microseconds and, when timezone-aware, the offset from UTC in microseconds. (Zone names are not modelled.)
Serves `coerceIso` (`_utils.py:244-248`). -/
structure DateTime where
  wall : Int
  offset : Option Int
  deriving DecidableEq, Repr

/-- A Python number given as a timestamp. Serves the model of `_utils.py:218-253`. -/
inductive Num where
  | fin (q : Rat)
  | inf
  | nan
  deriving DecidableEq, Repr

/-- The values a caller may pass where a creation time is expected. `other` is any other value. Serves `coerceCreatedAt` (`_utils.py:218-253`). -/
inductive TimeArg where
  | dt (t : DateTime)
  | num (n : Num)
  | str (s : List Char)
  | other
  deriving DecidableEq, Repr

/-- The conversions of Python's standard library: `float(s)`, `datetime.fromisoformat(s)` (`none` is `ValueError`) and `datetime.fromtimestamp(q, tz=UTC)` for a finite number (wall clock in UTC; it may raise).
Serves `coerceIso` (`_utils.py:244-248`). -/
structure TimeLib where
  parseFloat : List Char → Option Num
  fromIso : List Char → Option DateTime
  fromTs : Rat → Except Exc Int

/-- `dt.datetime.fromtimestamp(v, tz=dt.UTC)`: the result carries the UTC timezone; `nan` raises `ValueError`, infinities raise `OverflowError`.
Serves `coerceStr` (`_utils.py:238-248`). -/
def fromTimestamp (L : TimeLib) : Num → Except Exc DateTime
  | .fin q =>
    match L.fromTs q with
    | .ok w => .ok ⟨w, some 0⟩
    | .error e => .error e
  | .inf => .error .overflowError
  | .nan => .error .valueError

/-- The second attempt for a string, `_utils.py:244-248`. -/
def coerceIso (L : TimeLib) (s : List Char) : Except Exc DateTime :=
  match L.fromIso s with
  | some t => .ok t
  | none => .error .valueError

/-- The string branch, `_utils.py:238-248`: only `ValueError` is suppressed. -/
def coerceStr (L : TimeLib) (s : List Char) : Except Exc DateTime :=
  match L.parseFloat s with
  | none => coerceIso L s
  | some n =>
    match fromTimestamp L n with
    | .ok t => .ok t
    | .error .valueError => coerceIso L s
    | .error e => .error e

/-- `coerce_created_at`, `_utils.py:218-253`. -/
def coerceCreatedAt (L : TimeLib) : TimeArg → Except Exc DateTime
  | .dt t => if t.offset.isSome then .ok t else .ok { t with offset := some 0 }
  | .num n => fromTimestamp L n
  | .str s => coerceStr L s
  | .other => .error .valueError

/-! ### Class names -/

/-- `name.split("[")[0]`, `element.py:86-90`. -/
def stripGeneric (n : List Char) : List Char := n.takeWhile (fun c => c != '[')

/-- Result of `rsplit(".", 1)` on the reversed text: the part after the last dot and, if there is a dot, the part before it.
Serves the model of `_utils.py:101-129`. -/
def rsplitRev : List Char → List Char × Option (List Char)
  | [] => ([], none)
  | c :: cs => if c = '.' then ([], some cs.reverse) else ((rsplitRev cs).1 ++ [c], (rsplitRev cs).2)

/-- `s.rsplit(".", 1)`; the first component is absent if there is no dot. `s.split(".")[-1]` is the second component.
Serves `importType` (`_utils.py:101-129`). -/
def rsplit (s : List Char) : Option (List Char) × List Char := ((rsplitRev s.reverse).2, (rsplitRev s.reverse).1)

/-- What a module attribute may be: an `Element` class, another type, or something that is not a type. Serves `typeAttr` (`_utils.py:115-119`). -/
inductive Attr (γ : Type) where
  | cls (c : γ)
  | type
  | value
  deriving DecidableEq

/-- Which `from_dict` a class uses: `Element.from_dict`, `Node.from_dict` or its own. Serves the model of `element.py:78-94`. -/
inductive Impl where
  | element
  | node
  | custom
  deriving DecidableEq

/-- Values in metadata. `none` stands for every falsy value other than the empty string; `hash`/`unhash` are the remaining hashable and unhashable values.
Serves `validMeta` (`element.py:59-76`). -/
inductive MV (α : Type) where
  | str (s : List Char)
  | none
  | hash (a : α)
  | unhash (a : α)
  deriving DecidableEq

/-- Values in a serialised element. Serves `validId` (`_utils.py:186-215`). -/
inductive DV (ι α : Type) where
  | uuid (u : ι)
  | str (s : List Char)
  | dt (t : DateTime)
  | num (n : Num)
  | dict (d : Dict String (MV α))
  | none
  | other (a : α)
  deriving DecidableEq

/-- Serves `rawDict` (`element.py:95-103`). -/
abbrev Data (ι α : Type) := Dict String (DV ι α)

/-- An element: its class, the frozen fields, the metadata and the fields its class adds. Serves `rawDict` (`element.py:95-103`). -/
structure Elem (ι γ α φ : Type) where
  cls : γ
  id : ι
  created : DateTime
  metadata : Dict String (MV α)
  fields : Dict String φ
  deriving DecidableEq

/-- The classes that exist, the import system, and the external conversions.
* `module`/`qualname`/`name`: `__module__`, `__qualname__`, `__name__` of a class.
* `attr m n`: `getattr(importlib.import_module(m), n)`; `none` if the import or the attribute lookup fails.
* `fieldNames c`: the pydantic fields class `c` adds to those of `Element`.
* `dump c f x`: what `model_dump` writes for field `f`; `valid c f v`: what validation makes of the value `v` (`none`: rejected); `default c f`: the default of a field (`none`: required).
* `viaJson`/`metaViaJson`: a value after `orjson.dumps` and `orjson.loads`.
* `metaOf`: `to_dict(val, recursive=True, suppress=True)` on non-dict metadata.
* `custom c d`: the classmethod `from_dict` of a class with its own implementation. Serves `fullName` (`element.py:78-94`). -/
structure World (ι γ α φ : Type) where
  module : γ → List Char
  qualname : γ → List Char
  name : γ → List Char
  attr : List Char → List Char → Option (Attr γ)
  impl : γ → Impl
  fieldNames : γ → List String
  dump : γ → String → φ → DV ι α
  valid : γ → String → DV ι α → Option φ
  default : γ → String → Option φ
  viaJson : DV ι α → DV ι α
  metaViaJson : MV α → MV α
  metaOf : DV ι α → Dict String (MV α)
  custom : γ → Data ι α → Except Exc (Elem ι γ α φ)
  showId : ι → List Char
  parseId : List Char → Option ι
  time : TimeLib
  iso : DateTime → List Char
  timestamp : DateTime → Num

variable {ι γ α φ : Type} [DecidableEq ι] [DecidableEq γ]

/-- `cls.class_name(full=True)`, `element.py:78-94`. -/
def fullName (W : World ι γ α φ) (c : γ) : List Char := W.module c ++ '.' :: stripGeneric (W.qualname c)

/-! ### `load_type_from_string` -/

/-- A module path starting with a dot: `importlib.import_module` without a package raises `TypeError` for it, which is not caught (`_utils.py:111, 128`). -/
def relative (m : List Char) : Bool := m.head? == some '.'

/-- `getattr` and the type check, `_utils.py:115-119`; a missing module or attribute, or a value that is not a type, gives `ValueError`. Simplified: the code of the
imported module raises no other exception than `ImportError`, `ValueError` or `AttributeError`. -/
def typeAttr : Option (Attr γ) → Except Exc (Attr γ)
  | none => .error .valueError
  | some .value => .error .valueError
  | some a => .ok a

/-- The import attempt, `_utils.py:101-129`. -/
def importType (W : World ι γ α φ) (s : List Char) : Except Exc (Attr γ) :=
  match (rsplit s).1 with
  | none => .error .valueError
  | some m => if relative m then .error .typeError else typeAttr (W.attr m (rsplit s).2)

/-- `load_type_from_string` on a string with the cache `_TYPE_CACHE`, `_utils.py:78-129`: result and cache afterwards. -/
def loadType (W : World ι γ α φ) (cache : Dict (List Char) (Attr γ)) (s : List Char) :
    Except Exc (Attr γ) × Dict (List Char) (Attr γ) :=
  match cache.get? s with
  | some a => (.ok a, cache)
  | none =>
    match importType W s with
    | .ok a => (.ok a, cache.set s a)
    | .error e => (.error e, cache)

/-! ### Serialisation -/

/-- Serves `modeDict` (`element.py:126-136`). -/
inductive Mode where
  | python
  | json
  | db
  deriving DecidableEq

/-- Serves `defaultFmt` (`element.py:120-121`). -/
inductive Fmt where
  | datetime
  | isoformat
  | timestamp
  deriving DecidableEq

/-- The dict written for the fields a class adds. Serves `rawDict` (`element.py:95-103`). -/
def dumpFields (W : World ι γ α φ) (c : γ) (fs : Dict String φ) : Data ι α :=
  fs.map (fun fx => (fx.1, W.dump c fx.1 fx.2))

/-- `_to_dict`, `element.py:95-103`, without `include`/`exclude` arguments: `model_dump` with the class tag added to the dumped (copied) metadata. -/
def rawDict (W : World ι γ α φ) (x : Elem ι γ α φ) : Data ι α :=
  ("id", .uuid x.id) :: ("created_at", .dt x.created) ::
    ("metadata", .dict (x.metadata.set "lion_class" (.str (fullName W x.cls)))) :: dumpFields W x.cls x.fields

/-- A value after encoding to JSON and back: ids become text, times ISO text. Simplified: UTC offsets are whole minutes, for which orjson writes what `isoformat` writes (it drops the seconds of other offsets).
Serves `jsonDict` (`element.py:129-134`). -/
def jsonValue (W : World ι γ α φ) : DV ι α → DV ι α
  | .uuid u => .str (W.showId u)
  | .dt t => .str (W.iso t)
  | .dict d => .dict (d.map (fun kv => (kv.1, W.metaViaJson kv.2)))
  | v => W.viaJson v

/-- `orjson.loads(self.to_json(...))`, `element.py:129-134`. -/
def jsonDict (W : World ι γ α φ) (d : Data ι α) : Data ι α := d.map (fun kv => (kv.1, jsonValue W kv.2))

/-- The dict of the chosen mode before the adjustments, `element.py:126-136`. -/
def modeDict (W : World ι γ α φ) (x : Elem ι γ α φ) : Mode → Data ι α
  | .python => rawDict W x
  | .json => jsonDict W (rawDict W x)
  | .db => jsonDict W (rawDict W x)

/-- The format used when none is given, `element.py:120-121`. -/
def defaultFmt : Mode → Fmt
  | .json => .isoformat
  | _ => .datetime

/-- Adjusting `created_at`, `element.py:138-154`. -/
def setCreated (W : World ι γ α φ) (x : Elem ι γ α φ) (d : Data ι α) : Mode → Fmt → Except Exc (Data ι α)
  | .python, .isoformat => .ok (d.set "created_at" (.str (W.iso x.created)))
  | _, .isoformat => .ok d
  | _, .timestamp => .ok (d.set "created_at" (.num (W.timestamp x.created)))
  | .json, .datetime => .error .valueError
  | .db, .datetime => .ok (d.set "created_at" (.dt x.created))
  | .python, .datetime => .ok d

/-- `data[k] = data.pop(src)` if `src` is present. Serves `renameOut` (`element.py:155-156`). -/
def rename (d : Data ι α) (src k : String) : Data ι α :=
  match d.get? src with
  | some v => (d.del src).set k v
  | none => d

/-- The key the metadata is written under: `meta_key`, by default "node_metadata" in db mode; the empty string counts as absent, `element.py:123-124, 155`. -/
def metaKeyOut (mode : Mode) (metaKey : Option String) : Option String :=
  match metaKey, mode with
  | some "", _ => none
  | some k, _ => some k
  | none, .db => some "node_metadata"
  | none, _ => none

/-- The renaming of the metadata, `element.py:155-156`. -/
def renameOut (d : Data ι α) : Option String → Data ι α
  | some k => rename d "metadata" k
  | none => d

/-- `to_dict`, `element.py:104-158`. -/
def toDict (W : World ι γ α φ) (x : Elem ι γ α φ) (mode : Mode) (fmt : Option Fmt) (metaKey : Option String) :
    Except Exc (Data ι α) :=
  match setCreated W x (modeDict W x mode) mode (fmt.getD (defaultFmt mode)) with
  | .ok d => .ok (renameOut d (metaKeyOut mode metaKey))
  | .error e => .error e

/-! ### Validation -/

/-- `to_uuid` as the validator of `id`, `_utils.py:186-215` (an `Observable` is not modelled as input). -/
def validId (W : World ι γ α φ) : DV ι α → Option ι
  | .uuid u => some u
  | .str s => W.parseId s
  | _ => none

/-- The argument seen by `coerce_created_at`. Serves the model of `element.py:36-45`. -/
def timeArg : DV ι α → TimeArg
  | .dt t => .dt t
  | .num n => .num n
  | .str s => .str s
  | _ => .other

/-- `_validate_meta_integrity`, `element.py:59-76`. -/
def validMeta (W : World ι γ α φ) : DV ι α → Dict String (MV α)
  | .dict d => d
  | .none => []
  | .str [] => []
  | v => W.metaOf v

/-- Values generated by the default factories for a missing `id` or `created_at`. Serves `modelValidate` (`element.py:36-45`). -/
structure Fresh (ι : Type) where
  id : ι
  now : DateTime

/-- The validated fields a class adds. Serves `modelValidate` (`element.py:36-45`). -/
def validFields (W : World ι γ α φ) (c : γ) (d : Data ι α) : List String → Option (Dict String φ)
  | [] => some []
  | f :: fs =>
    match (match d.get? f with
      | some v => W.valid c f v
      | none => W.default c f) with
    | none => none
    | some x => (validFields W c d fs).map (fun r => (f, x) :: r)

/-- Serves `modelValidate` (`element.py:36-45`). -/
def idOf (W : World ι γ α φ) (fresh : Fresh ι) (d : Data ι α) : Except Exc ι :=
  match d.get? "id" with
  | none => .ok fresh.id
  | some v =>
    match validId W v with
    | some u => .ok u
    | none => .error .validation

/-- pydantic turns a `ValueError` of a validator into a `ValidationError`; others propagate. Serves the model of `element.py:36-45`. -/
def pydanticExc : Exc → Exc
  | .valueError => .validation
  | e => e

/-- Serves `modelValidate` (`element.py:36-45`). -/
def createdOf (W : World ι γ α φ) (fresh : Fresh ι) (d : Data ι α) : Except Exc DateTime :=
  match d.get? "created_at" with
  | none => .ok fresh.now
  | some v =>
    match coerceCreatedAt W.time (timeArg v) with
    | .ok t => .ok t
    | .error e => .error (pydanticExc e)

/-- Serves `modelValidate` (`element.py:36-45`). -/
def metaOfData (W : World ι γ α φ) (d : Data ι α) : Dict String (MV α) :=
  match d.get? "metadata" with
  | none => []
  | some v => validMeta W v

/-- Every key is a declared field (`extra = "forbid"`, `element.py:44`). -/
def keysAllowed (W : World ι γ α φ) (c : γ) (d : Data ι α) : Bool :=
  (Dict.keys d).all (fun k => ["id", "created_at", "metadata"].contains k || (W.fieldNames c).contains k)

/-- `cls.model_validate(data)` for a class with the configuration of `element.py:36-45`. -/
def modelValidate (W : World ι γ α φ) (fresh : Fresh ι) (c : γ) (d : Data ι α) : Except Exc (Elem ι γ α φ) :=
  if keysAllowed W c d then
    match idOf W fresh d, createdOf W fresh d, validFields W c d (W.fieldNames c) with
    | .ok u, .ok t, some fs => .ok ⟨c, u, t, metaOfData W d, fs⟩
    | .error e, _, _ => .error e
    | _, .error e, _ => .error e
    | _, _, none => .error .validation
  else .error .validation

/-! ### Deserialisation -/

/-- The metadata key is restored, `element.py:172-180` and `node.py:260-268`. -/
def restoreMeta (metaKey : Option String) (d : Data ι α) : Data ι α :=
  match metaKey with
  | some k =>
    if k ≠ "" ∧ d.has k then (rename d k "metadata").del "node_metadata"
    else if d.has "node_metadata" && !d.has "metadata" then (rename d "node_metadata" "metadata").del "node_metadata"
    else d.del "node_metadata"
  | none =>
    if d.has "node_metadata" && !d.has "metadata" then (rename d "node_metadata" "metadata").del "node_metadata"
    else d.del "node_metadata"

/-- The class tag is taken out of (a copy of) the metadata, `element.py:182-189` and `node.py:270-277`: remaining data, and the tag. -/
def takeTag (d : Data ι α) : Data ι α × MV α :=
  match d.get? "metadata" with
  | none => (d.set "metadata" (.dict []), .none)
  | some (.dict m) => (d.set "metadata" (.dict (m.del "lion_class")), (m.get? "lion_class").getD .none)
  | some _ => (d, .none)

/-- A tag that is falsy or names the class itself needs no dispatch, `element.py:191` and `node.py:279`. -/
def sameClass (W : World ι γ α φ) (c : γ) : MV α → Bool
  | .none => true
  | .str s => s.isEmpty || s == fullName W c
  | _ => false

/-- `NODE_REGISTRY`. Serves `registerClass` (`node.py:53-54, 329-330`). -/
abbrev Registry (γ : Type) := Dict (List Char) γ

/-- The two entries made for a class, `node.py:53-54, 329-330` (for a generic class the module-level `Node` uses `class_name`, which agrees). -/
def registerClass (W : World ι γ α φ) (R : Registry γ) (c : γ) : Registry γ :=
  (R.set (W.name c) c).set (W.module c ++ '.' :: W.name c) c

/-- The registry after a sequence of class definitions. Built on `registerClass` (`node.py:53-54, 329-330`). -/
def registerAll (W : World ι γ α φ) (cs : List γ) : Registry γ := cs.foldl (registerClass W) []

/-- `NODE_REGISTRY.get(tag) or NODE_REGISTRY.get(tag.split(".")[-1])`, `node.py:280-282` (a class is truthy). -/
def lookupTag (R : Registry γ) (s : List Char) : Option γ :=
  match R.get? s with
  | some c => some c
  | none => R.get? (rsplit s).2

/-- Applying the content deserializer, `node.py:245-258`; `none`: it raised. -/
def applyContent (f : Option (DV ι α → Option (DV ι α))) (d : Data ι α) : Except Exc (Data ι α) :=
  match f with
  | none => .ok d
  | some g =>
    match d.get? "content" with
    | none => .ok d
    | some v =>
      match g v with
      | some w => .ok (d.set "content" w)
      | none => .error .valueError

/-- `target_cls.from_dict(data, content_deserializer=...)` once the tag is gone: no further dispatch is possible, `node.py:283-286` entering `node.py:226-288` again. -/
def nodeFromDictUntagged (W : World ι γ α φ) (fresh : Fresh ι) (f : Option (DV ι α → Option (DV ι α))) (c : γ) (d : Data ι α) :
    Except Exc (Elem ι γ α φ) :=
  match applyContent f d with
  | .error e => .error e
  | .ok d1 => modelValidate W fresh c (takeTag (restoreMeta none d1)).1

/-- The dispatch on the tag, `node.py:279-288`. A target with its own `from_dict` is called through `custom` (without deserializer). -/
def nodeDispatch (W : World ι γ α φ) (R : Registry γ) (fresh : Fresh ι) (f : Option (DV ι α → Option (DV ι α))) (c : γ) (d : Data ι α) :
    MV α → Except Exc (Elem ι γ α φ)
  | .str s =>
    match lookupTag R s with
    | none => modelValidate W fresh c d
    | some t =>
      if t = c then modelValidate W fresh c d
      else if W.impl t = .custom then W.custom t d
      else nodeFromDictUntagged W fresh f t d
  | .unhash _ => .error .typeError
  | _ => .error .attributeError

/-- `Node.from_dict` on class `c`, `node.py:226-288`. -/
def nodeFromDict (W : World ι γ α φ) (R : Registry γ) (fresh : Fresh ι) (c : γ) (metaKey : Option String)
    (f : Option (DV ι α → Option (DV ι α))) (d : Data ι α) : Except Exc (Elem ι γ α φ) :=
  match applyContent f d with
  | .error e => .error e
  | .ok d1 =>
    if sameClass W c (takeTag (restoreMeta metaKey d1)).2 then modelValidate W fresh c (takeTag (restoreMeta metaKey d1)).1
    else nodeDispatch W R fresh f c (takeTag (restoreMeta metaKey d1)).1 (takeTag (restoreMeta metaKey d1)).2

/-- Calling `from_dict` of the loaded class, `element.py:205-213`: `model_validate` directly if it shares `Element.from_dict`, its own `from_dict` otherwise. -/
def callTarget (W : World ι γ α φ) (fresh : Fresh ι) (t : γ) (d : Data ι α) : Except Exc (Elem ι γ α φ) :=
  match W.impl t with
  | .element => modelValidate W fresh t d
  | .node => nodeFromDictUntagged W fresh none t d
  | .custom => W.custom t d

/-- The dispatch on the tag, `element.py:191-213`. (The type cache only repeats earlier results, see C129.) -/
def elementDispatch (W : World ι γ α φ) (fresh : Fresh ι) (d : Data ι α) : MV α → Except Exc (Elem ι γ α φ)
  | .str s =>
    match importType W s with
    | .ok (.cls t) => callTarget W fresh t d
    | .ok _ => .error .valueError
    | .error e => .error e
  | .unhash _ => .error .typeError
  | _ => .error .valueError

/-- `Element.from_dict` on class `c`, `element.py:160-215`. -/
def elementFromDict (W : World ι γ α φ) (fresh : Fresh ι) (c : γ) (metaKey : Option String) (d : Data ι α) :
    Except Exc (Elem ι γ α φ) :=
  if sameClass W c (takeTag (restoreMeta metaKey d)).2 then modelValidate W fresh c (takeTag (restoreMeta metaKey d)).1
  else elementDispatch W fresh (takeTag (restoreMeta metaKey d)).1 (takeTag (restoreMeta metaKey d)).2

/-- `Base.from_dict(data, meta_key=...)` for a class using the `Element` or the `Node` implementation. Built on `nodeFromDict` (`node.py:226-288`). -/
def fromDict (W : World ι γ α φ) (R : Registry γ) (fresh : Fresh ι) (c : γ) (metaKey : Option String) (d : Data ι α) :
    Except Exc (Elem ι γ α φ) :=
  match W.impl c with
  | .element => elementFromDict W fresh c metaKey d
  | .node => nodeFromDict W R fresh c metaKey none d
  | .custom => W.custom c d

/-! ### Identity and assignment -/

/-- `__eq__`, `element.py:253-257`, between elements. -/
def eq (x y : Elem ι γ α φ) : Bool := x.id == y.id

/-- `__hash__`, `element.py:259-261`, with the hash of ids as parameter. -/
def hash (h : ι → Int) (x : Elem ι γ α φ) : Int := h x.id

/-- `x.name = value`: frozen fields are rejected, other declared fields validated (`validate_assignment`), undeclared names rejected (`extra = "forbid"`), `element.py:36-45`. -/
def setAttr (W : World ι γ α φ) (x : Elem ι γ α φ) (name : String) (v : DV ι α) : Elem ι γ α φ × Except Exc Unit :=
  if name = "id" ∨ name = "created_at" then (x, .error .validation)
  else if name = "metadata" then ({ x with metadata := validMeta W v }, .ok ())
  else if (W.fieldNames x.cls).contains name then
    match W.valid x.cls name v with
    | some y => ({ x with fields := x.fields.set name y }, .ok ())
    | none => (x, .error .validation)
  else (x, .error .validation)

/-- An element after a history of assignments. Built on `setAttr` (`element.py:36-45`). -/
def history (W : World ι γ α φ) (x : Elem ι γ α φ) (ops : List (String × DV ι α)) : Elem ι γ α φ :=
  ops.foldl (fun y op => (setAttr W y op.1 op.2).1) x

end Verif.Element
