import Verif.Model.Spec
import Verif.Model.Operable

/-!
# From specs to Pydantic fields and models (`src/lionherd_core/types/spec_adapters/pydantic_field.py`)

Metadata values are abstract. `json_schema_extra` values are taken to be dicts. Pydantic's `Field`, `field_validator` and `create_model` enter only through the errors they raise and the table of fields they build.
-/

namespace Verif.Field

open Verif.Spec

/-- What is asked of metadata values beyond `Spec.Values`: is it a type; is it one function (a validator Pydantic accepts); its entries as a dict; the value `None`, and whether it is that.
Serves `step` (`pydantic_field.py:46-71`). -/
structure More (ν : Type) where
  isType : ν → Bool
  isFunction : ν → Bool
  entries : ν → Metas ν
  none : ν
  isNone : ν → Bool

/-- The keyword that holds extra schema entries. Serves `step` (`pydantic_field.py:46-71`). -/
def extraKey : Key := .other "json_schema_extra"

/-- The keyword arguments collected for `Field`: default, factory, parameters, extra entries, and whether the extra dict is the one in the metadata.
Serves `step` (`pydantic_field.py:46-71`). -/
structure Acc (ν : Type) where
  default : Option ν
  factory : Option ν
  params : Dict Key ν
  extra : Option (Dict Key ν)
  shared : Bool
  deriving DecidableEq

variable {ν τ : Type}

/-- One metadata entry in the loop of `create_field`, `pydantic_field.py:46-71`; `isParam` tells the parameters of `Field` other than `default`, `default_factory` and `json_schema_extra`. -/
def step (V : Values ν) (M : More ν) (isParam : Key → Bool) (a : Acc ν) (m : Key × ν) : Acc ν :=
  if m.1 = .default then (if V.callable m.2 then { a with factory := some m.2 } else { a with default := some m.2 })
  else if m.1 = .validator then a
  else if m.1 = .factory then { a with factory := some m.2 }
  else if m.1 = extraKey then { a with extra := some (M.entries m.2), shared := true }
  else if isParam m.1 then { a with params := a.params.set m.1 m.2 }
  else if m.1 = .nullable ∨ m.1 = .listable then a
  else if M.isType m.2 then a
  else { a with extra := some ((a.extra.getD []).set m.1 m.2) }

/-- Nothing collected yet. Serves the model of `pydantic_field.py:34-83`. -/
def Acc.empty : Acc ν := ⟨none, none, [], none, false⟩

/-- The loop. Serves `createField` (`pydantic_field.py:34-83`). -/
def collect (V : Values ν) (M : More ν) (isParam : Key → Bool) (ms : Metas ν) : Acc ν := ms.foldl (step V M isParam) .empty

/-- A field definition. Serves `createField` (`pydantic_field.py:34-83`). -/
structure FieldInfo (ν τ : Type) where
  annotation : Ty τ
  default : Option ν
  factory : Option ν
  params : Dict Key ν
  extra : Option (Dict Key ν)
  deriving DecidableEq

/-- `None` as the default of a nullable field without default, `pydantic_field.py:73-79`. -/
def nullDefault (V : Values ν) (M : More ν) (s : Spec ν τ) (a : Acc ν) : Option ν :=
  if flag V s .nullable && a.default.isNone && a.factory.isNone then some M.none else a.default

/-- `Field` takes the factory `None` as no factory. Serves `createField` (`pydantic_field.py:34-83`). -/
def givenFactory (M : More ν) (f : Option ν) : Option ν :=
  match f with
  | some g => if M.isNone g then none else some g
  | none => none

/-- `create_field`, `pydantic_field.py:34-83`; `Field` refuses both a default and a factory (`TypeError`). The default `...`, which Pydantic reads as required, is not modelled. -/
def createField (V : Values ν) (M : More ν) (isParam : Key → Bool) (s : Spec ν τ) : Except Exc (FieldInfo ν τ) :=
  if (collect V M isParam s.metas).default.isSome && (givenFactory M (collect V M isParam s.metas).factory).isSome then .error .typeError
  else .ok ⟨annotation V s, nullDefault V M s (collect V M isParam s.metas), givenFactory M (collect V M isParam s.metas).factory,
    (collect V M isParam s.metas).params, (collect V M isParam s.metas).extra⟩

/-- The dict in the spec's `json_schema_extra` metadata after `create_field`: entries written to a shared dict show there.
Built on `step` (`pydantic_field.py:46-71`). -/
def extraAfter (V : Values ν) (M : More ν) (isParam : Key → Bool) (s : Spec ν τ) : Option (Dict Key ν) :=
  if (collect V M isParam s.metas).shared then (collect V M isParam s.metas).extra else none

/-- What a model instance gets for a missing field: Pydantic on the field info made at `pydantic_field.py:80`. -/
def FieldInfo.missing (f : FieldInfo ν τ) : Option (Created ν) :=
  match f.factory, f.default with
  | some g, _ => some (.called g)
  | none, some v => some (.value v)
  | none, none => none

/-- `create_validator`, `pydantic_field.py:86-98`: `field_validator` refuses anything but one function. -/
def createValidator (V : Values ν) (M : More ν) (s : Spec ν τ) : Except Exc (Option ν) :=
  match get s.metas .validator with
  | none => .ok none
  | some v => if V.sentinel v then .ok none else if M.isFunction v then .ok (some v) else .error .typeError

/-- The fields of the selected specs that have a name, `pydantic_field.py:114-119`; `nameOf` is `spec.name`. -/
def fieldsOf {κ : Type} [DecidableEq κ] (V : Values ν) (M : More ν) (isParam : Key → Bool) (nameOf : Spec ν τ → Option κ) :
    List (Spec ν τ) → Dict κ (FieldInfo ν τ) → Except Exc (Dict κ (FieldInfo ν τ))
  | [], d => .ok d
  | s :: rest, d =>
    match nameOf s with
    | none => fieldsOf V M isParam nameOf rest d
    | some n =>
      match createField V M isParam s with
      | .error e => .error e
      | .ok f => fieldsOf V M isParam nameOf rest (d.set n f)

/-- The validators, `pydantic_field.py:122-125`: field name and function. -/
def validatorsOf {κ : Type} (V : Values ν) (M : More ν) (nameOf : Spec ν τ → Option κ) : List (Spec ν τ) → Except Exc (List (κ × ν))
  | [] => .ok []
  | s :: rest =>
    match nameOf s with
    | none => validatorsOf V M nameOf rest
    | some n =>
      match createValidator V M s with
      | .error e => .error e
      | .ok v =>
        match validatorsOf V M nameOf rest with
        | .error e => .error e
        | .ok vs => .ok ((v.map (fun f => (n, f))).toList ++ vs)

/-- A model class: its fields and validators. Serves `createModel` (`pydantic_field.py:101-149`). -/
structure ModelClass (κ ν τ : Type) where
  fields : Dict κ (FieldInfo ν τ)
  validators : List (κ × ν)

/-- `create_model`, `pydantic_field.py:101-149`, over the specs selected by `get_specs`; the base class has fields and validators of its own. -/
def createModel {κ : Type} [DecidableEq κ] (V : Values ν) (M : More ν) (isParam : Key → Bool) (nameOf : Spec ν τ → Option κ)
    (base : ModelClass κ ν τ) (specs : List (Spec ν τ)) : Except Exc (ModelClass κ ν τ) :=
  match fieldsOf V M isParam nameOf specs [] with
  | .error e => .error e
  | .ok d =>
    match validatorsOf V M nameOf specs with
    | .error e => .error e
    | .ok vs => .ok ⟨base.fields.update d, base.validators ++ vs⟩

end Verif.Field
