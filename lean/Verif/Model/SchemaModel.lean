import Verif.Model.CreatePath

/-!
# Model of `load_pydantic_model_from_schema`

`src/lionherd_core/libs/schema_handlers/_schema_to_model.py`. The code generator, the import system and `model_rebuild` are parameters; the
detection of the Python version is left out.
-/

namespace Verif.SchemaModel

open Verif.CreatePath (Text Path)

/-- Exceptions. Serves `checked` (`_schema_to_model.py:43`). -/
inductive Err where
  | importError
  | valueError
  | typeError
  | runtimeError
  | fileNotFound
  | attributeError
  deriving DecidableEq, Repr

/-! ### Names -/

/-- `c in string.ascii_letters`. Serves `validChar` (`_schema_to_model.py:40`). -/
def letter (c : Char) : Bool := (decide ('a' ≤ c) && decide (c ≤ 'z')) || (decide ('A' ≤ c) && decide (c ≤ 'Z'))

/-- `c in string.ascii_letters + string.digits + "_"`, `_schema_to_model.py:40`. -/
def validChar (c : Char) : Bool := letter c || (decide ('0' ≤ c) && decide (c ≤ '9')) || c == '_'

/-- The check of the first character, `_schema_to_model.py:43` (of the valid characters exactly the letters are `isalpha`). -/
def checked : Text → Except Err Text
  | [] => .error .valueError
  | c :: cs => if letter c then .ok (c :: cs) else .error .valueError

/-- `_sanitize_model_name`, `_schema_to_model.py:34-47` (the removal of blanks is covered by the filter). -/
def sanitize (name : Text) : Except Err Text := checked (name.filter validChar)

/-- The title of a schema: missing, a text, or another value. Serves `extractName` (`_schema_to_model.py:50-58`). -/
inductive Title where
  | missing
  | text (t : Text)
  | other
  deriving DecidableEq, Repr

/-- `_extract_model_name_from_schema`, `_schema_to_model.py:50-58`. -/
def extractName (title : Title) (default : Text) : Text :=
  match title with
  | .text t =>
    match sanitize t with
    | .ok n => n
    | .error _ => default
  | _ => default

/-! ### Input -/

/-- A schema argument: a dict (with its title and, if it can be written, its JSON text), a text (with the dict it denotes, if any), or something else.
Serves `prepare` (`_schema_to_model.py:61-85`). -/
inductive Schema where
  | dict (title : Title) (json : Option Text)
  | text (t : Text) (title : Option Title)
  | other

/-- `_prepare_schema_input`, `_schema_to_model.py:61-85`: the JSON text and the name. -/
def prepare (s : Schema) (modelName : Text) : Except Err (Text × Text) :=
  match s with
  | .dict title (some j) => .ok (j, extractName title modelName)
  | .dict _ none => .error .valueError
  | .text t (some title) => .ok (t, extractName title modelName)
  | .text _ none => .error .valueError
  | .other => .error .typeError

/-! ### Generation and loading -/

/-- An attribute of the generated module: a class generated from the schema, the class `BaseModel` it imports, or something else.
Serves `validModel` (`_schema_to_model.py:140-141`). -/
inductive Obj where
  | generated (name : Text)
  | baseModel
  | other
  deriving DecidableEq, Repr

/-- What the code generator does with a text: it raises, or it writes a module with these attributes (`none` inside: it writes no file). `runs`: the
code can be executed; `rebuilds`: `model_rebuild` succeeds for a class. Serves `rebuild` (`_schema_to_model.py:175-184`). -/
structure Generator where
  generate : Text → Option (Option (Text → Option Obj))
  runs : Text → Bool
  rebuilds : Obj → Bool

/-- `_is_valid_model`, `_schema_to_model.py:140-141`: `BaseModel` is a subclass of itself. -/
def validModel : Obj → Bool
  | .generated _ => true
  | .baseModel => true
  | .other => false

/-- A found attribute. Serves `extractClass` (`_schema_to_model.py:133-172`). -/
def useAttr (o : Obj) : Except Err Obj := if validModel o then .ok o else .error .typeError

/-- `_extract_model_class`, `_schema_to_model.py:133-172`. -/
def extractClass (m : Text → Option Obj) (name : Text) : Except Err Obj :=
  match m name with
  | some o => useAttr o
  | none =>
    match m "Model".toList with
    | some o => useAttr o
    | none => .error .attributeError

/-- `_rebuild_model`, `_schema_to_model.py:175-184`. -/
def rebuild (G : Generator) (o : Obj) : Except Err Obj := if G.rebuilds o then .ok o else .error .runtimeError

/-- `_generate_model_code` and `_load_generated_module`, `_schema_to_model.py:88-130`. -/
def load (G : Generator) (json : Text) : Except Err (Text → Option Obj) :=
  match G.generate json with
  | none => .error .runtimeError
  | some none => .error .fileNotFound
  | some (some m) => if G.runs json then .ok m else .error .runtimeError

/-- `resolved_name.lower()`. Simplified: only ASCII letters change. Serves `outputFile` (`_schema_to_model.py:237-239`). -/
def lower (t : Text) : Text := t.map Char.toLower

/-- The file of the generated code, `_schema_to_model.py:237-239`; `h` is the text of the hash. -/
def outputFile (tmp : Path) (name h : Text) : Path := tmp.join (lower name ++ "_model_".toList ++ h ++ ".py".toList)

/-- What comes after the names are known, `_schema_to_model.py:241-250`. -/
def build (G : Generator) (json name : Text) : Except Err Obj :=
  match load G json with
  | .error e => .error e
  | .ok m =>
    match extractClass m name with
    | .error e => .error e
    | .ok o => rebuild G o

/-- `load_pydantic_model_from_schema`, `_schema_to_model.py:187-250`: the result and the file that is written, if that point is reached. `installed`: the
code generator can be imported. -/
def loadModel (G : Generator) (installed : Bool) (tmp : Path) (hash : Text → Text) (s : Schema) (modelName : Text) : Option Path × Except Err Obj :=
  if installed then
    match prepare s modelName with
    | .error e => (none, .error e)
    | .ok (j, n) => (some (outputFile tmp n (hash j)), build G j n)
  else (none, .error .importError)

end Verif.SchemaModel
