import Verif.Py.Dict
import Verif.Py.Basic
import Verif.Model.HashDict

/-!
# Model of `Params`, `DataClass` and `Meta` (`src/lionherd_core/types/base.py`)
-/

namespace Verif.Params

/-! ### Allowed keys: a class-level cache -/

/-- Classes: `mro c` is the class itself followed by its ancestors up to `Params`; `fields c` are all its public fields, inherited ones included.
Serves `allowed` (`base.py:98-104`). -/
structure Classes (γ φ : Type) where
  mro : γ → List γ
  fields : γ → List φ

variable {γ φ ν : Type} [DecidableEq γ] [DecidableEq φ]

/-- The class attributes `_allowed_keys` that were assigned so far. Serves `lookup` (`base.py:67`). -/
abbrev Cache (γ φ : Type) := Dict γ (List φ)

/-- `cls._allowed_keys`: the attribute of the nearest class that has one; `Params` itself starts with the empty set, `base.py:67`. -/
def lookup (cache : Cache γ φ) : List γ → List φ
  | [] => []
  | c :: cs =>
    match cache.get? c with
    | some ks => ks
    | none => lookup cache cs

/-- `allowed`, `base.py:98-104`: the keys and the cache after the call. -/
def allowed (C : Classes γ φ) (cache : Cache γ φ) (c : γ) : List φ × Cache γ φ :=
  if (lookup cache (C.mro c)).isEmpty then (C.fields c, cache.set c (C.fields c)) else (lookup cache (C.mro c), cache)

/-- Cache after a history of uses of classes. Built on `allowed` (`base.py:98-104`). -/
def history (C : Classes γ φ) (uses : List γ) : Cache γ φ := uses.foldl (fun cache c => (allowed C cache c).2) []

/-! ### Construction, `to_dict`, `with_updates` -/

/-- Configuration and the tests on values: `sentinel` is `_is_sentinel` (`base.py:80-87`), `undefined` is `is Undefined`, `norm` is `_normalize_value` (`base.py:89-94`). -/
structure Cfg (ν : Type) where
  sentinel : ν → Bool
  undefined : ν → Bool
  unset : ν
  norm : ν → ν
  strict : Bool
  prefill : Bool

/-- The attributes of an object that are set. Serves `missingAttr` (`base.py:110`). -/
abbrev Attrs (φ ν : Type) := Dict φ ν

/-- `getattr(self, k, Unset)` is a sentinel, `base.py:110`. -/
def missingAttr (cfg : Cfg ν) (a : Attrs φ ν) (k : φ) : Bool :=
  match a.get? k with
  | some v => cfg.sentinel v
  | none => cfg.sentinel cfg.unset

/-- `getattr(self, k, Undefined) is Undefined`, `base.py:112`. -/
def undefinedAttr (cfg : Cfg ν) (a : Attrs φ ν) (k : φ) : Bool :=
  match a.get? k with
  | some v => cfg.undefined v
  | none => true

/-- Prefilling with `Unset`, `base.py:112-113`. -/
def prefill (cfg : Cfg ν) : List φ → Attrs φ ν → Attrs φ ν
  | [], a => a
  | k :: ks, a => if cfg.prefill && undefinedAttr cfg a k then prefill cfg ks (a.set k cfg.unset) else prefill cfg ks a

/-- `__init__` and `_validate`, `base.py:69-78` and `106-115`, for the keys `keys` that the class allows.  An ExceptionGroup of missing parameters is `validation`. -/
def init (cfg : Cfg ν) (keys : List φ) (kw : Attrs φ ν) : Except Exc (Attrs φ ν) :=
  if kw.keys.all (fun k => decide (k ∈ keys)) then
    if cfg.strict && keys.any (missingAttr cfg kw) then .error .validation
    else .ok (prefill cfg keys kw)
  else .error .valueError

/-- The entry of `k` in `to_dict`, `base.py:131-135`. -/
def dictEntry (cfg : Cfg ν) (a : Attrs φ ν) (k : φ) : Option (φ × ν) :=
  match a.get? k with
  | some v => if cfg.sentinel v then none else some (k, cfg.norm v)
  | none => none

/-- `to_dict`, `base.py:128-136`; the one of `DataClass`, `base.py:222-231`, does the same (its fields are always set). -/
def toDict (cfg : Cfg ν) (keys : List φ) (a : Attrs φ ν) (exclude : List φ := []) : Dict φ ν :=
  (keys.filter (fun k => !decide (k ∈ exclude))).filterMap (dictEntry cfg a)

/-- `with_updates`, `base.py:149-188`.  Copies of containers (`copy_containers`) are equal to the originals and not distinguished. -/
def withUpdates (cfg : Cfg ν) (keys : List φ) (a : Attrs φ ν) (kw : Dict φ ν) : Except Exc (Attrs φ ν) :=
  init cfg keys ((toDict cfg keys a).update kw)

/-! ### Equality -/

open HashDict in
/-- `to_dict()` as data for `hash_dict`; field names are atoms. Serves `paramsHash` (`base.py:138-141`). -/
def dictData {α : Type} : Dict α (Data α) → Data α
  | [] => .nil
  | (k, v) :: d => .dcons k v (dictData d)

open HashDict in
/-- `__hash__`, `base.py:138-141`. -/
def paramsHash {α β σ : Type} [DecidableEq α] (O : Ops α β σ) (hash : Rep β σ → Int) (cfg : Cfg (Data α)) (keys : List α) (a : Attrs α (Data α)) : Int :=
  hashDict O hash (.coll .dict (dictData (toDict cfg keys a)))

open HashDict in
/-- `Params.__eq__`, `base.py:143-147`, on objects with the keys `keys` and `keys'` (also `DataClass.__eq__`, `base.py:296-300`).  Subclasses decorated with the
default `@dataclass` options get `generatedEq` instead. -/
def paramsEq {α β σ : Type} [DecidableEq α] (O : Ops α β σ) (hash : Rep β σ → Int) (cfg cfg' : Cfg (Data α)) (keys keys' : List α) (a a' : Attrs α (Data α)) : Bool :=
  decide (paramsHash O hash cfg keys a = paramsHash O hash cfg' keys' a')

/-- The `__eq__` that `@dataclass` generates in a subclass (`eq=True`): same class and all fields equal; `none`: AttributeError.  Replaces `base.py:143-147` there. -/
def generatedEq (veq : ν → ν → Bool) : List φ → Attrs φ ν → Attrs φ ν → Option Bool
  | [], _, _ => some true
  | k :: ks, a, a' =>
    match a.get? k, a'.get? k, generatedEq veq ks a a' with
    | some v, some v', some r => some (veq v v' && r)
    | _, _, _ => none

/-! ### `Meta` -/

/-- What `Meta` asks of its values. Serves `metaEq` (`base.py:327-341`). -/
structure Values (ν : Type) where
  callable : ν → Bool
  id : ν → Int
  hash : ν → Option Int      -- `none`: unhashable
  str : ν → List Char
  eq : ν → ν → Bool

/-- `Meta.__eq__`, `base.py:327-341`. -/
def metaEq (V : Values ν) (m m' : φ × ν) : Bool :=
  if m.1 ≠ m'.1 then false
  else if V.callable m.2 && V.callable m'.2 then decide (V.id m.2 = V.id m'.2)
  else V.eq m.2 m'.2

/-- What enters `hash((key, ...))`, `base.py:313-325`: the hash of the value, of its id, or of its text. -/
def metaHashed (V : Values ν) (strHash : List Char → Int) (m : φ × ν) : φ × Int :=
  if V.callable m.2 then (m.1, V.id m.2)
  else
    match V.hash m.2 with
    | some h => (m.1, h)
    | none => (m.1, strHash (V.str m.2))

/-- `Meta.__hash__`. Built on `metaHashed` (`base.py:313-325`). -/
def metaHash (V : Values ν) (strHash : List Char → Int) (pairHash : φ × Int → Int) (m : φ × ν) : Int := pairHash (metaHashed V strHash m)

end Verif.Params
