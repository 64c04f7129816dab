import Verif.Py.Basic
import Verif.Py.Dict

/-!
# Model of the TypeScript-like rendering of JSON schemas (`src/lionherd_core/libs/schema_handlers/_typescript.py`)
-/

namespace Verif.TypeScript

/-- JSON values that occur in `enum` and `default`; `other` carries Python's `str` of any other value. Serves `enumText` (`_typescript.py:22-28`). -/
inductive Val where
  | null
  | bool (b : Bool)
  | str (s : String)
  | other (text : String)
  deriving DecidableEq

/-- The value of `type`: a name, a name followed by `?` (left by schema simplification), or a list of names.
Serves `typeMap` (`_typescript.py:5-16`). -/
inductive Ty where
  | one (name : String)
  | opt (name : String)
  | many (names : List String)
  deriving DecidableEq

/-- A `$ref`, split at `/`. Serves the model of `_typescript.py:55-58`. -/
abbrev Ref := List String

/-- The `items` of an array. Serves `optItemType` (`_typescript.py:55-58`). -/
structure Item where
  type : Option Ty := none
  ref : Option Ref := none
  enum : Option (List Val) := none
  deriving DecidableEq

/-- A member of `anyOf`. Serves `optText` (`_typescript.py:53-66`). -/
structure Opt where
  type : Option Ty := none
  items : Option Item := none
  ref : Option Ref := none
  enum : Option (List Val) := none
  deriving DecidableEq

/-- The schema of one property; absent keys are `none`. Serves `plainSignature` (`_typescript.py:75-111`). -/
structure Spec where
  enum : Option (List Val) := none
  anyOf : Option (List Opt) := none
  type : Option Ty := none
  items : Option Item := none
  ref : Option Ref := none
  default : Option Val := none
  description : Option String := none
  deriving DecidableEq

/-- `_type_map` on names, `_typescript.py:5-16`. -/
def typeName (n : String) : String :=
  if n = "integer" then "int" else if n = "number" then "float" else if n = "boolean" then "bool" else n

/-- `_type_map`, `_typescript.py:5-16`: a list is not hashable, so `mapping.get` raises `TypeError`. -/
def typeMap : Ty → Except Exc String
  | .one n => .ok (typeName n)
  | .opt n => .ok (n ++ "?")
  | .many _ => .error .typeError

/-- One value of `_format_enum_union`, `_typescript.py:22-28`. -/
def enumText : Val → String
  | .str s => "\"" ++ s ++ "\""
  | .null => "null"
  | .bool b => if b then "True" else "False"
  | .other t => t

/-- `_format_enum_union`, `_typescript.py:19-29`. -/
def enumUnion (l : List Val) : String := " | ".intercalate (l.map enumText)

/-- `ref.split("/")[-1]`. Serves `optItemType` (`_typescript.py:55-58`). -/
def refName (r : Ref) : String := r.getLastD ""

/-- The name of `array` types. Serves `optTyped` (`_typescript.py:53-61`). -/
def isArray (t : Ty) : Bool := t = .one "array"

/-- The item type in an `anyOf` member, `_typescript.py:55-58`: the `type` is mapped first, a `$ref` then takes precedence. -/
def optItemType (i : Item) : Except Exc String :=
  match typeMap (i.type.getD (.one "any")) with
  | .error e => .error e
  | .ok t =>
    match i.ref with
    | some r => .ok (refName r)
    | none => .ok t

/-- An `anyOf` member with a `type`, `_typescript.py:53-61`. -/
def optTyped (t : Ty) (items : Option Item) : Except Exc String :=
  match items with
  | some i => if isArray t then (optItemType i).map (· ++ "[]") else typeMap t
  | none => typeMap t

/-- The text contributed by one `anyOf` member that is not `null`, `_typescript.py:53-66`; `none` when it contributes nothing. -/
def optText (o : Opt) : Except Exc (Option String) :=
  match o.type with
  | some t => (optTyped t o.items).map some
  | none =>
    match o.ref with
    | some r => .ok (some (refName r))
    | none =>
      match o.enum with
      | some l => .ok (some (enumUnion l))
      | none => .ok none

/-- `opt.get("type") == "null"`, `_typescript.py:49`. -/
def isNullOpt (o : Opt) : Bool := o.type = some (.one "null")

/-- The loop over `anyOf`, `_typescript.py:48-66`. -/
def optParts : List Opt → Except Exc (List String)
  | [] => .ok []
  | o :: os =>
    if isNullOpt o then optParts os
    else
      match optText o with
      | .error e => .error e
      | .ok t =>
        match optParts os with
        | .error e => .error e
        | .ok ts => .ok (t.toList ++ ts)

/-- The text of a union, `_typescript.py:68-71`. -/
def unionText (parts : List String) (hasNull : Bool) : String :=
  if (parts ++ (if hasNull then ["null"] else [])).isEmpty then "any" else " | ".intercalate (parts ++ (if hasNull then ["null"] else []))

/-- The item type of an array property, `_typescript.py:77-87`. -/
def arrayItemType : Option Item → Except Exc String
  | none => .ok "any"
  | some i =>
    match i.type with
    | some t => typeMap t
    | none =>
      match i.ref with
      | some r => .ok (refName r)
      | none =>
        match i.enum with
        | some l => .ok ("(" ++ enumUnion l ++ ")")
        | none => .ok "any"

/-- A simple type, `_typescript.py:98-108`. -/
def simpleType (t : Ty) (required : Bool) : Except Exc (String × Bool) :=
  match t with
  | .opt n => .ok (typeName n, true)
  | t => (typeMap t).map (fun s => (s, !required))

/-- The parts after `enum` and `anyOf`, `_typescript.py:75-111`. -/
def plainSignature (s : Spec) (required : Bool) : Except Exc (String × Bool) :=
  match s.type with
  | some t =>
    if isArray t then (arrayItemType s.items).map (fun x => (x ++ "[]", !required))
    else
      match s.ref with
      | some r => .ok (refName r, !required)
      | none => simpleType t required
  | none =>
    match s.ref with
    | some r => .ok (refName r, !required)
    | none => .ok ("any", !required)

/-- `_extract_type_signature`, `_typescript.py:32-111`: the type text and whether the property is optional. -/
def signature (s : Spec) (required : Bool) : Except Exc (String × Bool) :=
  match s.enum with
  | some l => .ok (enumUnion l, !required || l.contains .null)
  | none =>
    match s.anyOf with
    | some opts => (optParts opts).map (fun ps => (unionText ps (opts.any isNullOpt), !required || opts.any isNullOpt))
    | none => plainSignature s required

/-- The default value, `_typescript.py:131-141`. -/
def defaultText : Option Val → String
  | none => ""
  | some (.str s) => " = \"" ++ s ++ "\""
  | some .null => " = null"
  | some (.bool b) => " = " ++ (if b then "true" else "false")
  | some (.other t) => " = " ++ t

/-- The description, `_typescript.py:148-149`; an empty one is not shown. -/
def descText : Option String → String
  | none => ""
  | some d => if d = "" then "" else " - " ++ d

/-- `prefix = "  " * indent`, `_typescript.py:117`. -/
def indentText (n : Nat) : String := String.join (List.replicate n "  ")

/-- One line of the output, `_typescript.py:124-151`. -/
def line (indent : Nat) (required : List String) (name : String) (s : Spec) : Except Exc String :=
  match signature s (required.contains name) with
  | .error e => .error e
  | .ok (sig, optional) => .ok (indentText indent ++ name ++ (if optional then "?" else "") ++ ": " ++ sig ++ defaultText s.default ++ descText s.description)

/-- The lines of all properties, `_typescript.py:124-151`. -/
def linesOf (indent : Nat) (required : List String) : Dict String Spec → Except Exc (List String)
  | [] => .ok []
  | (n, s) :: r =>
    match line indent required n s with
    | .error e => .error e
    | .ok l =>
      match linesOf indent required r with
      | .error e => .error e
      | .ok ls => .ok (l :: ls)

/-- A schema: `properties` (may be absent) and `required`. Serves `typescriptSchema` (`_typescript.py:114-153`). -/
structure Schema where
  properties : Option (Dict String Spec) := none
  required : List String := []

/-- `typescript_schema`, `_typescript.py:114-153`. -/
def typescriptSchema (sch : Schema) (indent : Nat) : Except Exc String :=
  match sch.properties with
  | none => .ok ""
  | some ps => (linesOf indent sch.required ps).map ("\n".intercalate ·)

end Verif.TypeScript
